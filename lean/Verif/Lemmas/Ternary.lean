/-
Lemmas about the ternary matrices.
-/
import Verif.Spec.Ternary
import Mathlib.Algebra.BigOperators.Fin
import Mathlib.Algebra.BigOperators.Intervals
import Mathlib.Tactic.Ring

namespace Verif
open Verif.Spec

theorem byte_lift {P : UInt8 → Prop} (h : ∀ n : Fin 256, P (UInt8.ofNat n)) (b : UInt8) : P b := by
  have := h ⟨b.toNat, b.toNat_lt⟩
  simpa using this

theorem mask_ofBits (b : UInt8) : ∀ j : Fin 4, twoBits (maskByte b) j =
    ofBits (b.toNat.testBit (2 * j)) (b.toNat.testBit (2 * j + 1)) := by
  apply byte_lift (P := fun b => ∀ j : Fin 4, twoBits (maskByte b) j =
    ofBits (b.toNat.testBit (2 * j)) (b.toNat.testBit (2 * j + 1)))
  decide +kernel

theorem twoBits_tern (b : UInt8) (j : Nat) :
    twoBits b j = -1 ∨ twoBits b j = 0 ∨ twoBits b j = 1 := by
  simp only [twoBits]
  omega

variable {R : Type} [CommRing R]

theorem pick_get {row : TRow} {j : Nat} {x : Int} (h : row.get j = .ok x) (v : R) :
    pick v x = .ok (v * (x : R)) := by
  unfold TRow.get at h
  obtain ⟨b, -, h⟩ := Res.bind_eq_ok.1 h
  simp only [Res.pure_eq, Res.ok.injEq] at h
  rcases twoBits_tern b (j % 4) with h' | h' | h' <;> rw [h'] at h <;> subst h <;> simp [pick]

theorem addRow_eq (row : TRow) (vi : R) (f : ℕ → ℤ) (rs : List R) :
    ∀ j0, (∀ j, j < rs.length → row.get (j0 + j) = .ok (f (j0 + j))) →
      addRow row vi j0 rs = .ok (rs.mapIdx fun j r => r + vi * (f (j0 + j) : R)) := by
  induction rs with
  | nil => intro j0 _; rfl
  | cons r rs ih =>
    intro j0 h
    have h0 := h 0 (by simp)
    rw [Nat.add_zero] at h0
    have := ih (j0 + 1) (fun j hj => by
      have := h (j + 1) (by simpa using hj)
      rwa [show j0 + 1 + j = j0 + (j + 1) by omega])
    unfold addRow
    simp only [h0, Res.ok_bind, pick_get h0, this, Res.pure_eq, List.mapIdx_cons, Nat.add_zero,
      Res.ok.injEq, List.cons.injEq, true_and]
    congr 1
    funext j r
    rw [show j0 + 1 + j = j0 + (j + 1) by omega]

theorem leftLoop_eq (M : TMat) (f : ℕ → ℕ → ℤ) (vs : List R) :
    ∀ i0 (result : List R),
      (∀ i, i < vs.length → ∀ j, j < result.length → M.get (i0 + i) j = .ok (f (i0 + i) j)) →
      i0 + vs.length ≤ M.length →
      leftLoop M i0 vs result = .ok (result.mapIdx fun j r =>
        r + ∑ i ∈ Finset.range vs.length, vs.getD i 0 * (f (i0 + i) j : R)) := by
  induction vs with
  | nil => intro i0 result _ _; simp [leftLoop]; apply List.ext_getElem <;> simp
  | cons v vs ih =>
    intro i0 result h hl
    simp only [List.length_cons] at hl h
    have hrd : rd M i0 = .ok M[i0] := rd_ok (by omega)
    have h0 : ∀ j, j < result.length → M[i0].get (0 + j) = .ok (f i0 (0 + j)) := by
      intro j hj
      have := h 0 (by omega) j hj
      simpa [TMat.get, hrd] using this
    unfold leftLoop
    rw [hrd, Res.ok_bind, addRow_eq _ v (f i0) result 0 h0, Res.ok_bind, ih]
    · simp only [List.mapIdx_mapIdx, Res.ok.injEq, List.length_cons]
      congr 1
      funext j r
      simp only [Function.comp_apply, Finset.sum_range_succ']
      simp only [List.getD_cons_succ, List.getD_cons_zero, Nat.add_zero, Nat.zero_add]
      rw [add_assoc, add_comm (v * _)]
      congr 3
      funext i
      rw [show i0 + 1 + i = i0 + (i + 1) by omega]
    · intro i hi j hj
      rw [List.length_mapIdx] at hj
      have := h (i + 1) (by omega) j hj
      rwa [show i0 + 1 + i = i0 + (i + 1) by omega]
    · omega

theorem addCol_eq (M : TMat) (i : ℕ) (vi : R) (f : ℕ → ℤ) (rs : List R) :
    ∀ j0, (∀ j, j < rs.length → M.get (j0 + j) i = .ok (f (j0 + j))) →
      addCol M i vi j0 rs = .ok (rs.mapIdx fun j r => r + vi * (f (j0 + j) : R)) := by
  induction rs with
  | nil => intro j0 _; rfl
  | cons r rs ih =>
    intro j0 h
    have h0 := h 0 (by simp)
    rw [Nat.add_zero] at h0
    have := ih (j0 + 1) (fun j hj => by
      have := h (j + 1) (by simpa using hj)
      rwa [show j0 + 1 + j = j0 + (j + 1) by omega])
    have hp : pick vi (f j0) = .ok (vi * (f j0 : R)) := by
      unfold TMat.get at h0
      obtain ⟨row, -, h0⟩ := Res.bind_eq_ok.1 h0
      exact pick_get h0 vi
    unfold addCol
    simp only [h0, Res.ok_bind, hp, this, Res.pure_eq, List.mapIdx_cons, Nat.add_zero,
      Res.ok.injEq, List.cons.injEq, true_and]
    congr 1
    funext j r
    rw [show j0 + 1 + j = j0 + (j + 1) by omega]

theorem rightLoop_eq (M : TMat) (f : ℕ → ℕ → ℤ) (vs : List R) :
    ∀ i0 (result : List R),
      (∀ i, i < vs.length → ∀ j, j < result.length → M.get j (i0 + i) = .ok (f j (i0 + i))) →
      rightLoop M i0 vs result = .ok (result.mapIdx fun j r =>
        r + ∑ i ∈ Finset.range vs.length, vs.getD i 0 * (f j (i0 + i) : R)) := by
  induction vs with
  | nil => intro i0 result _; simp [rightLoop]; apply List.ext_getElem <;> simp
  | cons v vs ih =>
    intro i0 result h
    simp only [List.length_cons] at h
    have h0 : ∀ j, j < result.length → M.get (0 + j) i0 = .ok (f (0 + j) i0) := by
      intro j hj
      have := h 0 (by omega) j hj
      simpa using this
    unfold rightLoop
    rw [addCol_eq M i0 v (fun j => f j i0) result 0 h0, Res.ok_bind, ih]
    · simp only [List.mapIdx_mapIdx, Res.ok.injEq, List.length_cons]
      congr 1
      funext j r
      simp only [Function.comp_apply, Finset.sum_range_succ']
      simp only [List.getD_cons_succ, List.getD_cons_zero, Nat.add_zero, Nat.zero_add]
      rw [add_assoc, add_comm (v * _)]
      congr 3
      funext i
      rw [show i0 + 1 + i = i0 + (i + 1) by omega]
    · intro i hi j hj
      rw [List.length_mapIdx] at hj
      have := h (i + 1) (by omega) j hj
      rwa [show i0 + 1 + i = i0 + (i + 1) by omega]

/-- extension of a finite matrix by 0 -/
def ext0 {n m : Nat} (M : Matrix (Fin n) (Fin m) ℤ) (i j : ℕ) : ℤ :=
  if h : i < n ∧ j < m then M ⟨i, h.1⟩ ⟨j, h.2⟩ else 0

theorem leftVecMult_eq {n m : Nat} {T : TMat} {M : Matrix (Fin n) (Fin m) ℤ} (h : Holds T M)
    (v : Fin n → R) :
    leftVecMult (List.ofFn v) T = .ok (List.ofFn (Matrix.vecMul v (castMat R M))) := by
  obtain ⟨hn, hm, hg⟩ := h
  unfold leftVecMult
  rw [if_neg (by simp [hn]), leftLoop_eq T (ext0 M)]
  · congr 1
    apply List.ext_getElem
    · simp [hm]
    · intro j h1 h2
      simp only [List.length_mapIdx, List.length_replicate, hm] at h1
      simp only [List.getElem_mapIdx, List.getElem_replicate, List.getElem_ofFn, List.length_ofFn,
        Matrix.vecMul, dotProduct, castMat, zero_add, Finset.sum_range]
      apply Finset.sum_congr rfl
      intro i _
      simp [ext0, h1]
  · intro i hi j hj
    simp only [List.length_ofFn, List.length_replicate, hm] at hi hj
    simpa [ext0, hi, hj] using hg ⟨i, hi⟩ ⟨j, hj⟩
  · simp [hn]

theorem rightVecMult_eq {n m : Nat} {T : TMat} {M : Matrix (Fin n) (Fin m) ℤ} (h : Holds T M)
    (v : Fin m → R) :
    rightVecMult T (List.ofFn v) = .ok (List.ofFn (Matrix.mulVec (castMat R M) v)) := by
  obtain ⟨hn, hm, hg⟩ := h
  unfold rightVecMult
  rw [if_neg (by simp [hm]), rightLoop_eq T (ext0 M)]
  · congr 1
    apply List.ext_getElem
    · simp [hn]
    · intro j h1 h2
      simp only [List.length_mapIdx, List.length_replicate, hn] at h1
      simp only [List.getElem_mapIdx, List.getElem_replicate, List.getElem_ofFn, List.length_ofFn,
        Matrix.mulVec, dotProduct, castMat, zero_add, Finset.sum_range]
      apply Finset.sum_congr rfl
      intro i _
      simp [ext0, h1, mul_comm]
  · intro i hi j hj
    simp only [List.length_ofFn, List.length_replicate, hn] at hi hj
    simpa [ext0, hi, hj] using hg ⟨j, hj⟩ ⟨i, hi⟩

theorem mapRes_ok {α β : Type} {f : α → Res β} {g : α → β} {l : List α}
    (h : ∀ a ∈ l, f a = .ok (g a)) : mapRes f l = .ok (l.map g) := by
  induction l with
  | nil => rfl
  | cons a l ih =>
    unfold mapRes
    rw [h a (by simp), Res.ok_bind, ih (fun b hb => h b (by simp [hb]))]
    rfl

theorem mapRes_ofFn {α β : Type} {f : α → Res β} {n : ℕ} {l : Fin n → α} {g : Fin n → β}
    (h : ∀ i, f (l i) = .ok (g i)) : mapRes f (List.ofFn l) = .ok (List.ofFn g) := by
  induction n with
  | zero => simp [mapRes]
  | succ n ih =>
    rw [List.ofFn_succ, List.ofFn_succ]
    unfold mapRes
    rw [h 0, Res.ok_bind, ih (fun i => h i.succ)]
    rfl

theorem range_eq_ofFn (n : ℕ) : List.range n = List.ofFn fun i : Fin n => i.1 := by
  apply List.ext_getElem <;> simp

theorem leftMatMult_eq {k n m : Nat} {T : TMat} {M : Matrix (Fin n) (Fin m) ℤ} (h : Holds T M)
    (A : Matrix (Fin k) (Fin n) R) :
    leftMatMult (toNMat A) T = .ok (toNMat (A * castMat R M)) := by
  unfold leftMatMult
  rw [if_neg (by simp [toNMat, h.1])]
  have : mapRes (fun row => leftVecMult row T) (toNMat A).rows =
      .ok (List.ofFn fun i => List.ofFn fun j => (A * castMat R M) i j) := by
    apply mapRes_ofFn
    intro i
    exact leftVecMult_eq h (A i)
  rw [this, Res.ok_bind, h.2.1]
  rfl

theorem rightMatMult_eq {n m k : Nat} {T : TMat} {M : Matrix (Fin n) (Fin m) ℤ} (h : Holds T M)
    (A : Matrix (Fin m) (Fin k) R) :
    rightMatMult T (toNMat A) = .ok (toNMat (castMat R M * A)) := by
  unfold rightMatMult
  rw [if_neg (by simp [toNMat, h.2.1])]
  have h1 : mapRes (fun j => do
      let inTmp ← mapRes (fun row => rd row j) (toNMat A).rows
      rightVecMult T inTmp) (List.range (toNMat A).ncols) =
      .ok (List.ofFn fun j : Fin k => List.ofFn fun i : Fin n => (castMat R M * A) i j) := by
    rw [show (toNMat A).ncols = k from rfl, range_eq_ofFn]
    apply mapRes_ofFn
    intro j
    have : mapRes (fun row => rd row j.1) (toNMat A).rows = .ok (List.ofFn fun i => A i j) := by
      apply mapRes_ofFn
      intro i
      rw [rd_ok (by simp)]
      simp
    rw [this, Res.ok_bind, rightVecMult_eq h]
    rfl
  rw [h1, Res.ok_bind, h.1, range_eq_ofFn]
  have h2 : mapRes (fun i => mapRes (fun col => rd col i)
      (List.ofFn fun j : Fin k => List.ofFn fun i : Fin n => (castMat R M * A) i j))
      (List.ofFn fun i : Fin n => i.1) =
      .ok (List.ofFn fun i : Fin n => List.ofFn fun j : Fin k => (castMat R M * A) i j) := by
    apply mapRes_ofFn
    intro i
    apply mapRes_ofFn
    intro j
    rw [rd_ok (by simp)]
    simp
  rw [h2]
  rfl

/-! ### Horner -/

/-- The value of a list of matrices, from the highest coefficient down, starting from `acc`. -/
def hornerVal {A : Type} [AddCommGroup A] [Module R A] (X : R) : List A → A → A
  | [], acc => acc
  | a :: l, acc => hornerVal X l (X • acc + a)

theorem hornerVal_eq {A : Type} [AddCommGroup A] [Module R A] (X : R) (l : List A) :
    ∀ acc, hornerVal X l acc = X ^ l.length • acc +
      ∑ k ∈ Finset.range l.length, X ^ k • l.reverse.getD k 0 := by
  induction l with
  | nil => intro acc; simp [hornerVal]
  | cons a l ih =>
    intro acc
    rw [hornerVal, ih, List.length_cons, Finset.sum_range_succ]
    rw [smul_add, ← add_assoc]
    have h1 : (a :: l).reverse.getD l.length 0 = a := by
      simp [List.getD_eq_getElem?_getD]
    have h2 : ∑ k ∈ Finset.range l.length, X ^ k • (a :: l).reverse.getD k 0 =
        ∑ k ∈ Finset.range l.length, X ^ k • l.reverse.getD k 0 := by
      apply Finset.sum_congr rfl
      intro k hk
      rw [Finset.mem_range] at hk
      congr 1
      rw [List.reverse_cons, List.getD_eq_getElem?_getD, List.getD_eq_getElem?_getD,
        List.getElem?_append_left (by simpa using hk)]
    rw [h1, h2, smul_smul, ← pow_succ]
    ac_rfl

theorem vecScale_ofFn {n : ℕ} (X : R) (v : Fin n → R) :
    vecScale X (List.ofFn v) = List.ofFn (X • v) := by
  unfold vecScale
  rw [List.map_ofFn]
  congr 1
  funext i
  simp [mul_comm]

theorem zipWith_ofFn {α : Type} {n : ℕ} (f : α → α → α) (v w : Fin n → α) :
    List.zipWith f (List.ofFn v) (List.ofFn w) = List.ofFn fun i => f (v i) (w i) := by
  apply List.ext_getElem
  · simp
  · intro i h1 h2
    simp only [List.getElem_zipWith, List.getElem_ofFn]

theorem vecAdd_ofFn {n : ℕ} (v w : Fin n → R) :
    vecAdd (List.ofFn v) (List.ofFn w) = .ok (List.ofFn (v + w)) := by
  unfold vecAdd
  rw [if_neg (by simp), zipWith_ofFn]
  rfl

theorem hornerLoop_eq {n : ℕ} (X : R) (f : TMat → Res (List R)) (Ms : List TMat)
    (g : List (Fin n → R)) (h : List.Forall₂ (fun M v => f M = .ok (List.ofFn v)) Ms g) :
    ∀ acc : Fin n → R, hornerLoop X f Ms (List.ofFn acc) = .ok (List.ofFn (hornerVal X g acc)) := by
  induction h with
  | nil => intro acc; rfl
  | cons h1 _ ih =>
    intro acc
    unfold hornerLoop
    rw [h1, Res.ok_bind, vecScale_ofFn, vecAdd_ofFn, Res.ok_bind, ih]
    rfl

theorem nmScale_toNMat {n m : ℕ} (X : R) (A : Matrix (Fin n) (Fin m) R) :
    nmScale X (toNMat A) = toNMat (X • A) := by
  unfold nmScale toNMat
  congr 1
  rw [List.map_ofFn]
  congr 1
  funext i
  exact vecScale_ofFn X (A i)

theorem nmAdd_toNMat {n m : ℕ} (A B : Matrix (Fin n) (Fin m) R) :
    nmAdd (toNMat A) (toNMat B) = .ok (toNMat (A + B)) := by
  unfold nmAdd
  rw [if_neg (by simp [toNMat])]
  unfold toNMat
  simp only [zipWith_ofFn]
  rfl

theorem hornerLoopM_eq {n m : ℕ} (X : R) (f : TMat → Res (NMat R)) (Ms : List TMat)
    (g : List (Matrix (Fin n) (Fin m) R))
    (h : List.Forall₂ (fun M v => f M = .ok (toNMat v)) Ms g) :
    ∀ acc : Matrix (Fin n) (Fin m) R,
      hornerLoopM X f Ms (toNMat acc) = .ok (toNMat (hornerVal X g acc)) := by
  induction h with
  | nil => intro acc; rfl
  | cons h1 _ ih =>
    intro acc
    unfold hornerLoopM
    rw [h1, Res.ok_bind, nmScale_toNMat, nmAdd_toNMat, Res.ok_bind, ih]
    rfl

/-! ### setFromBytes -/

/-- the stored rows of the decoded matrix -/
def decodedRows (bytes : Bytes) (n m : Nat) : TMat :=
  (List.range n).map fun i =>
    ⟨m, ((bytes.drop (i * ((m + 3) / 4))).take ((m + 3) / 4)).map maskByte⟩

theorem setRowLoop_eq (bytes : Bytes) (base : Nat) : ∀ k i rep, rep.length = i + k →
    setRowLoop bytes base k i rep =
      if base + i + k ≤ bytes.length ∨ k = 0 then
        .ok (rep.take i ++ ((bytes.drop (base + i)).take k).map maskByte) else .ub := by
  intro k
  induction k with
  | zero => intro i rep h; simp [setRowLoop, List.take_of_length_le (show rep.length ≤ i by omega)]
  | succ k ih =>
    intro i rep h
    unfold setRowLoop
    by_cases hl : base + i < bytes.length
    · rw [rd_ok hl, Res.ok_bind, wr, if_pos (by omega), Res.ok_bind, ih (i + 1) _ (by simp; omega)]
      have e : (rep.set i (maskByte bytes[base + i])).take (i + 1) ++
          ((bytes.drop (base + (i + 1))).take k).map maskByte =
          rep.take i ++ ((bytes.drop (base + i)).take (k + 1)).map maskByte := by
        rw [List.drop_eq_getElem_cons hl, List.take_succ_cons, List.map_cons,
          List.take_add_one, List.getElem?_set_self (by omega), List.take_set_of_le (le_refl i)]
        simp [Nat.add_assoc]
      rw [e]
      by_cases hk : base + (i + 1) + k ≤ bytes.length
      · rw [if_pos (Or.inl hk), if_pos (Or.inl (by omega))]
      · by_cases hk0 : k = 0
        · rw [if_pos (Or.inr hk0), if_pos (Or.inl (by omega))]
        · rw [if_neg (by omega), if_neg (by omega)]
    · have : rd bytes (base + i) = .ub := by
        unfold rd
        rw [List.getElem?_eq_none (by omega)]
      rw [this, Res.ub_bind, if_neg (by omega)]

theorem setMatLoop_eq (bytes : Bytes) (w : Nat) (M : TMat) : ∀ base,
    (∀ r ∈ M, r.rep.length = w) →
    setMatLoop bytes w base M =
      if base + M.length * w ≤ bytes.length ∨ M.length * w = 0 then
        .ok (M.mapIdx fun i r =>
          ⟨r.len, ((bytes.drop (base + i * w)).take w).map maskByte⟩) else .ub := by
  induction M with
  | nil => intro base _; simp [setMatLoop]
  | cons r M ih =>
    intro base h
    unfold setMatLoop
    rw [setRowLoop_eq bytes base w 0 r.rep (by rw [h r (by simp)]; omega),
      ih (base + w) (fun r hr => h r (by simp [hr]))]
    have hmul : (r :: M).length * w = M.length * w + w := by
      rw [List.length_cons, Nat.succ_mul]
    rw [hmul]
    by_cases h1 : base + 0 + w ≤ bytes.length ∨ w = 0
    · rw [if_pos h1, Res.ok_bind]
      by_cases h2 : base + w + M.length * w ≤ bytes.length ∨ M.length * w = 0
      · rw [if_pos h2, if_pos (by omega)]
        simp only [Res.ok_bind, Res.pure_eq, List.mapIdx_cons, List.take_zero, List.nil_append,
          Nat.add_zero, Nat.zero_mul, Res.ok.injEq, List.cons.injEq, true_and]
        congr 1
        funext i r
        rw [show base + w + i * w = base + (i + 1) * w by rw [Nat.succ_mul]; omega]
      · rw [if_neg h2, if_neg (by omega)]
        rfl
    · rw [if_neg h1, Res.ub_bind, if_neg (by omega)]

theorem bytesResize_length (b : Bytes) (n : Nat) : (bytesResize b n).length = n := by
  simp [bytesResize]; omega

theorem resize_length (M : TMat) (n m : Nat) : (M.resize n m).length = n := by
  simp [TMat.resize]; omega

theorem resize_mem {M : TMat} {n m : Nat} {r : TRow} (h : r ∈ M.resize n m) :
    r.len = m ∧ r.rep.length = (m + 3) / 4 := by
  unfold TMat.resize at h
  obtain ⟨r0, -, rfl⟩ := List.mem_map.1 h
  exact ⟨rfl, bytesResize_length _ _⟩

theorem resize_numCols (M : TMat) {n m : Nat} (hn : 0 < n) : (M.resize n m).numCols = m := by
  have hl := resize_length M n m
  have hm : ∀ r ∈ M.resize n m, _ := fun r hr => resize_mem (M := M) hr
  revert hl hm
  generalize M.resize n m = M'
  intro hl hm
  cases M' with
  | nil => simp at hl; omega
  | cons r l => exact (hm r (by simp)).1

theorem setFromBytesNM_eq (M : TMat) (bytes : Bytes) (n m : Nat) :
    M.setFromBytesNM bytes n m =
      if n * ((m + 3) / 4) ≤ bytes.length then .ok (decodedRows bytes n m) else .ub := by
  unfold TMat.setFromBytesNM TMat.setFromBytes
  rcases Nat.eq_zero_or_pos n with rfl | hn
  · have : M.resize 0 m = [] := List.length_eq_zero_iff.1 (resize_length M 0 m)
    rw [this]
    simp [setMatLoop, decodedRows]
  · rw [resize_numCols M hn, setMatLoop_eq _ _ _ _ fun r hr => (resize_mem hr).2, resize_length]
    have : (List.mapIdx (fun i (r : TRow) => (⟨r.len, ((bytes.drop (0 + i * ((m + 3) / 4))).take
        ((m + 3) / 4)).map maskByte⟩ : TRow)) (M.resize n m)) = decodedRows bytes n m := by
      apply List.ext_getElem
      · simp [decodedRows, resize_length]
      · intro i h1 h2
        simp only [List.getElem_mapIdx, decodedRows, List.getElem_map, List.getElem_range,
          Nat.zero_add]
        rw [(resize_mem (List.getElem_mem _)).1]
    rw [this]
    by_cases h : n * ((m + 3) / 4) ≤ bytes.length
    · rw [if_pos (by omega), if_pos h]
    · rw [if_neg (by omega), if_neg h]

theorem decodedRows_get {bytes : Bytes} {n m : Nat} (h : n * ((m + 3) / 4) ≤ bytes.length)
    (i : Fin n) (j : Fin m) : (decodedRows bytes n m).get i j = .ok (decoded bytes n m i j) := by
  obtain ⟨w, hw⟩ : ∃ w, w = (m + 3) / 4 := ⟨_, rfl⟩
  have hi : i.1 * w + w ≤ n * w := by
    rw [← Nat.succ_mul]; exact Nat.mul_le_mul_right _ i.2
  have hj : j.1 / 4 < w := by have := j.2; omega
  unfold TMat.get decodedRows
  rw [rd_ok (by simp), Res.ok_bind]
  simp only [List.getElem_map, List.getElem_range, TRow.get, decoded, ← hw] at h ⊢
  rw [rd_ok (by simp only [List.length_map, List.length_take, List.length_drop]; omega)]
  simp only [Res.ok_bind, Res.pure_eq, List.getElem_map, List.getElem_take, List.getElem_drop]
  have := mask_ofBits (bytes[i.1 * w + j.1 / 4]'(by omega)) ⟨j.1 % 4, Nat.mod_lt _ (by omega)⟩
  simp only at this
  rw [this, List.getD_eq_getElem?_getD, List.getElem?_eq_getElem (by omega)]
  rfl

theorem decodedRows_holds {bytes : Bytes} {n m : Nat} (h : n * ((m + 3) / 4) ≤ bytes.length)
    (hnm : 0 < n ∨ m = 0) : Holds (decodedRows bytes n m) (decoded bytes n m) := by
  refine ⟨by simp [decodedRows], ?_, decodedRows_get h⟩
  cases n with
  | zero => simp [decodedRows, TMat.numCols]; omega
  | succ n => simp [decodedRows, List.range_succ_eq_map, TMat.numCols]

theorem eSetLoop_eq (bytes : Bytes) (n m : Nat) (Ms : List TMat) : ∀ i,
    eSetLoop bytes (n * ((m + 3) / 4)) i (Ms.map fun (M : TMat) => M.resize n m) =
      if (i + Ms.length) * (n * ((m + 3) / 4)) ≤ bytes.length ∨
          Ms.length * (n * ((m + 3) / 4)) = 0 then
        .ok (Ms.mapIdx fun k _ => decodedRows (bytes.drop ((i + k) * (n * ((m + 3) / 4)))) n m)
      else .ub := by
  induction Ms with
  | nil => intro i; simp [eSetLoop]
  | cons M Ms ih =>
    intro i
    rw [List.map_cons]
    unfold eSetLoop
    have h0 : TMat.setFromBytes (M.resize n m) (bytes.drop (i * (n * ((m + 3) / 4)))) =
        _ := setFromBytesNM_eq M (bytes.drop (i * (n * ((m + 3) / 4)))) n m
    rw [h0, ih (i + 1)]
    obtain ⟨b, hb⟩ : ∃ b, b = n * ((m + 3) / 4) := ⟨_, rfl⟩
    simp only [← hb, List.length_drop, List.length_cons]
    have e1 : (i + (Ms.length + 1)) * b = i * b + Ms.length * b + b := by ring
    have e2 : (i + 1 + Ms.length) * b = i * b + Ms.length * b + b := by ring
    have e3 : (Ms.length + 1) * b = Ms.length * b + b := by ring
    rw [e1, e2, e3]
    by_cases h1 : b ≤ bytes.length - i * b
    · rw [if_pos h1, Res.ok_bind]
      by_cases h2 : i * b + Ms.length * b + b ≤ bytes.length ∨ Ms.length * b = 0
      · rw [if_pos h2]
        rw [if_pos]
        · simp only [Res.ok_bind, Res.pure_eq, List.mapIdx_cons, Nat.add_zero, Res.ok.injEq,
            List.cons.injEq, true_and]
          congr 1
          funext k _
          rw [show i + 1 + k = i + (k + 1) by omega]
        · rcases h2 with h2 | h2
          · exact Or.inl h2
          · by_cases hb0 : b = 0
            · right; simp [hb0]
            · left; omega
      · rw [if_neg h2, Res.ub_bind, if_neg]
        omega
    · rw [if_neg h1, Res.ub_bind, if_neg]
      omega

theorem eSetFromBytesNM_eq (degree : Nat) (Ms : List TMat) (bytes : Bytes) (n m : Nat) :
    eSetFromBytesNM degree Ms bytes n m =
      if degree * (n * ((m + 3) / 4)) ≤ bytes.length then
        .ok ((List.range degree).map fun k =>
          decodedRows (bytes.drop (k * (n * ((m + 3) / 4)))) n m)
      else .ub := by
  unfold eSetFromBytesNM eResize
  simp only []
  obtain ⟨Ms', hMs⟩ : ∃ Ms' : List TMat,
    Ms' = Ms.take degree ++ List.replicate (degree - Ms.length) [] := ⟨_, rfl⟩
  have hl : Ms'.length = degree := by rw [hMs]; simp; omega
  rw [← hMs]
  have hb : Ms' ≠ [] → eNumRows (Ms'.map fun (M : TMat) => M.resize n m) *
      ((eNumCols (Ms'.map fun (M : TMat) => M.resize n m) + 3) / 4) = n * ((m + 3) / 4) := by
    intro hne
    cases Ms' with
    | nil => exact absurd rfl hne
    | cons M l =>
      simp only [List.map_cons, eNumRows, eNumCols, resize_length]
      rcases Nat.eq_zero_or_pos n with rfl | hn
      · simp
      · rw [resize_numCols M hn]
  cases hd : degree with
  | zero =>
    rw [hd] at hl
    rw [List.length_eq_zero_iff.1 hl]
    simp [eSetLoop]
  | succ d =>
    rw [hb (by intro h; rw [h] at hl; simp at hl; omega), eSetLoop_eq, hl, Nat.zero_add, ← hd]
    have : (Ms'.mapIdx fun k _ => decodedRows (bytes.drop ((0 + k) * (n * ((m + 3) / 4)))) n m) =
        (List.range degree).map fun k =>
          decodedRows (bytes.drop (k * (n * ((m + 3) / 4)))) n m := by
      apply List.ext_getElem
      · simp [hl]
      · intro i h1 h2
        simp
    rw [this]
    by_cases h : degree * (n * ((m + 3) / 4)) ≤ bytes.length
    · rw [if_pos (Or.inl h), if_pos h]
    · rw [if_neg (by omega), if_neg h]

end Verif
