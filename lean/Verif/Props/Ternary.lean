/-
Properties C26-C29: matrices with entries in {-1,0,1}.
-/
import Verif.Lemmas.TernaryCount
import Mathlib.Data.ZMod.Basic
import Mathlib.Data.Matrix.Basic
import Mathlib.Tactic.Positivity
import Mathlib.Tactic.FinCases

namespace Verif.Props
open Verif Verif.Spec

/-- **C26.** `setFromBytes(bytes,n,m)` reads `n·⌈m/4⌉` bytes (it is undefined exactly when the
buffer is shorter) and stores the documented matrix (`Spec.decoded`), whatever was stored
before. (With `n = 0` rows the object always reports 0 columns.) -/
theorem C26_decode (T : TMat) (bytes : Bytes) (n m : Nat) (hnm : 0 < n ∨ m = 0)
    (hlen : n * ((m + 3) / 4) ≤ bytes.length) :
    ∃ T', T.setFromBytesNM bytes n m = .ok T' ∧ Holds T' (decoded bytes n m) := by
  refine ⟨decodedRows bytes n m, ?_, decodedRows_holds hlen hnm⟩
  rw [setFromBytesNM_eq, if_pos hlen]

theorem C26_short_buffer (T : TMat) (bytes : Bytes) (n m : Nat) :
    T.setFromBytesNM bytes n m = .ub ↔ bytes.length < n * ((m + 3) / 4) := by
  rw [setFromBytesNM_eq]
  by_cases h : n * ((m + 3) / 4) ≤ bytes.length
  · simp [h]
  · simp [h]; omega

/-- **C26.** Every entry that can be read from any ternary matrix is -1, 0 or 1. -/
theorem C26_ternary (T : TMat) (i j : Nat) (x : Int) (h : T.get i j = .ok x) :
    x = -1 ∨ x = 0 ∨ x = 1 := by
  unfold TMat.get TRow.get at h
  obtain ⟨row, -, h⟩ := Res.bind_eq_ok.1 h
  obtain ⟨b, -, h⟩ := Res.bind_eq_ok.1 h
  simp only [Res.pure_eq, Res.ok.injEq] at h
  subst h
  exact twoBits_tern _ _

/-- **C26.** The checked access `at(i).at(j)` agrees with the stored matrix and throws
outside it. -/
theorem C26_at (T : TMat) (bytes : Bytes) (n m : Nat) (T' : TMat)
    (h : T.setFromBytesNM bytes n m = .ok T') (i j : Nat) :
    T'.at i j = if i < n ∧ j < m then T'.get i j else .throw := by
  rw [setFromBytesNM_eq] at h
  split at h
  · simp only [Res.ok.injEq] at h
    subst h
    unfold TMat.at TMat.get
    by_cases hi : i < n
    · have hg : (decodedRows bytes n m)[i]? = some
          ⟨m, ((bytes.drop (i * ((m + 3) / 4))).take ((m + 3) / 4)).map maskByte⟩ := by
        simp [decodedRows, hi]
      have hrd : rd (decodedRows bytes n m) i = .ok
          ⟨m, ((bytes.drop (i * ((m + 3) / 4))).take ((m + 3) / 4)).map maskByte⟩ := by
        unfold rd; rw [hg]
      rw [hg, hrd, Res.ok_bind]
      by_cases hj : j < m
      · rw [if_pos ⟨hi, hj⟩]
        simp [TRow.at, hj]
      · rw [if_neg (by omega)]
        simp only [TRow.at]
        rw [if_pos (by simp; omega)]
    · rw [if_neg (by omega)]
      have : (decodedRows bytes n m)[i]? = none := by
        simp [decodedRows]; omega
      rw [this]
  · cases h

/-- **C26.** With uniform bytes the entries are independent with
`Pr[0] = 1/2`, `Pr[1] = Pr[-1] = 1/4`: the number of byte buffers of the right size that decode
to a given ternary matrix `M`, as a fraction of all `256^(n·⌈m/4⌉)` of them, is
`∏ (2/4 for a zero entry, 1/4 for another)`. -/
theorem C26_distribution (n m : Nat) (M : Matrix (Fin n) (Fin m) ℤ)
    (hM : ∀ i j, M i j = -1 ∨ M i j = 0 ∨ M i j = 1) :
    (Nat.card {buf : Fin (n * ((m + 3) / 4)) → Fin 256 //
      decoded (List.ofFn fun k => UInt8.ofFin (buf k)) n m = M} : ℚ) /
        256 ^ (n * ((m + 3) / 4)) =
      ∏ i, ∏ j, if M i j = 0 then (1 / 2 : ℚ) else 1 / 4 := by
  have h := decoded_count M hM
  have h' : ((Nat.card {buf : Fin (n * ((m + 3) / 4)) → Fin 256 //
      decoded (List.ofFn fun k => UInt8.ofFin (buf k)) n m = M} : ℕ) : ℚ) * 4 ^ (n * m) =
      256 ^ (n * ((m + 3) / 4)) * ∏ i, ∏ j, if M i j = 0 then (2 : ℚ) else 1 := by
    have := congrArg (Nat.cast (R := ℚ)) h
    push_cast at this
    exact this
  have h2 : (∏ i, ∏ j, if M i j = 0 then (1 / 2 : ℚ) else 1 / 4) * 4 ^ (n * m) =
      ∏ i, ∏ j, if M i j = 0 then (2 : ℚ) else 1 := by
    have h3 : (4 : ℚ) ^ (n * m) = ∏ _i : Fin n, ∏ _j : Fin m, (4 : ℚ) := by
      simp [Finset.prod_const, ← pow_mul, mul_comm]
    rw [h3, ← Finset.prod_mul_distrib]
    apply Finset.prod_congr rfl
    intro i _
    rw [← Finset.prod_mul_distrib]
    apply Finset.prod_congr rfl
    intro j _
    split <;> norm_num
  have h4 : (4 : ℚ) ^ (n * m) ≠ 0 := pow_ne_zero _ (by norm_num)
  have h5 : (256 : ℚ) ^ (n * ((m + 3) / 4)) ≠ 0 := pow_ne_zero _ (by norm_num)
  rw [div_eq_iff h5]
  apply mul_right_cancel₀ h4
  rw [h', mul_right_comm, h2, mul_comm]

/-- A 2×5 matrix from the bytes of the repository's test (tests/test_ternaryMatrix.cpp:13-16). -/
example : ∃ T', TMat.setFromBytesNM [] [0x12, 0xf7, 0x59, 0xf6] 2 5 = .ok T' ∧
    Holds T' (decoded [0x12, 0xf7, 0x59, 0xf6] 2 5) :=
  C26_decode [] _ 2 5 (by omega) (by decide)
example : decoded [0x12, 0xf7, 0x59, 0xf6] 2 5 = ![![-1, 0, 1, 0, 0], ![1, -1, 1, 1, -1]] := by
  ext i j; fin_cases i <;> fin_cases j <;> decide +kernel

section
variable {R : Type} [CommRing R] {n m k e : Nat}

/-- **C27.** `v·M`. -/
theorem C27_left_vec {T : TMat} {M : Matrix (Fin n) (Fin m) ℤ} (h : Holds T M) (v : Fin n → R) :
    leftVecMult (List.ofFn v) T = .ok (List.ofFn (Matrix.vecMul v (castMat R M))) :=
  leftVecMult_eq h v

/-- **C27.** `M·v`. -/
theorem C27_right_vec {T : TMat} {M : Matrix (Fin n) (Fin m) ℤ} (h : Holds T M) (v : Fin m → R) :
    rightVecMult T (List.ofFn v) = .ok (List.ofFn (Matrix.mulVec (castMat R M) v)) :=
  rightVecMult_eq h v

/-- **C27.** `A·M`. -/
theorem C27_left_mat {T : TMat} {M : Matrix (Fin n) (Fin m) ℤ} (h : Holds T M)
    (A : Matrix (Fin k) (Fin n) R) :
    leftMatMult (toNMat A) T = .ok (toNMat (A * castMat R M)) :=
  leftMatMult_eq h A

/-- **C27.** `M·A`. -/
theorem C27_right_mat {T : TMat} {M : Matrix (Fin n) (Fin m) ℤ} (h : Holds T M)
    (A : Matrix (Fin m) (Fin k) R) :
    rightMatMult T (toNMat A) = .ok (toNMat (castMat R M * A)) :=
  rightMatMult_eq h A

/-- **C27.** Incompatible dimensions throw. -/
theorem C27_mismatch (T : TMat) (v : List R) (A : NMat R) :
    (v.length ≠ T.length → leftVecMult v T = .throw) ∧
    (v.length ≠ T.numCols → rightVecMult T v = .throw) ∧
    (A.ncols ≠ T.length → leftMatMult A T = .throw) ∧
    (A.rows.length ≠ T.numCols → rightMatMult T A = .throw) := by
  refine ⟨fun h => by simp [leftVecMult, h], fun h => by simp [rightVecMult, h],
    fun h => by simp [leftMatMult, h], fun h => by simp [rightMatMult, Ne.symm h]⟩

/-- Non-vacuity: the matrix of the test over `ZMod 17`. -/
example : ∃ T, Holds T (decoded [0x12, 0xf7, 0x59, 0xf6] 2 5) ∧
    leftVecMult (List.ofFn ![(3 : ZMod 17), 5]) T = .ok [2, -5, 8, 5, -5] := by
  obtain ⟨T, -, h⟩ := C26_decode [] [0x12, 0xf7, 0x59, 0xf6] 2 5 (by omega) (by decide)
  refine ⟨T, h, ?_⟩
  rw [C27_left_vec h]
  decide +kernel

/-- **C28.** Reading entry `(i,j)` of a `TernaryEMatrix` gives `Σ_k M_k[i][j]·X^k`. -/
theorem C28_entry (X : R) {Ms : List TMat} {M : Fin e → Matrix (Fin n) (Fin m) ℤ}
    (h : EHolds Ms M) (i : Fin n) (j : Fin m) :
    eGet e X Ms i j = .ok (polyMat X M i j) := by
  unfold eGet
  rw [if_neg (by rw [h.1]; omega)]
  induction Ms generalizing e with
  | nil =>
    obtain ⟨h1, -⟩ := h
    subst h1
    simp [eGetLoop, polyMat]
  | cons T Ms ih =>
    obtain ⟨h1, h2⟩ := h
    subst h1
    have hT := h2 ⟨0, by simp⟩ T (by simp)
    unfold eGetLoop
    rw [hT.2.2 i j, Res.ok_bind]
    have := ih (e := Ms.length) (M := fun k => M ⟨k.1 + 1, by simp⟩)
      ⟨rfl, fun k T hk => h2 ⟨k.1 + 1, by simp⟩ T (by simpa using hk)⟩
    rw [this, Res.ok_bind]
    simp only [Res.pure_eq, Res.ok.injEq, polyMat]
    have e1 : ∑ k : Fin (T :: Ms).length, X ^ k.1 * ((M k i j : ℤ) : R) =
        ∑ k : Fin (Ms.length + 1), X ^ k.1 * ((M k i j : ℤ) : R) := rfl
    rw [e1, Fin.sum_univ_succ]
    simp only [Fin.val_zero, pow_zero, one_mul, Finset.mul_sum, Fin.val_succ, pow_succ']
    congr 1
    apply Finset.sum_congr rfl
    intro k _
    rw [mul_assoc]
    rfl

private theorem horner_prep {A : Type} [AddCommGroup A] [Module R A] (X : R) (P : TMat → A → Prop)
    {Ms : List TMat} (g : Fin e → A) (hl : Ms.length = e) (he : e ≠ 0)
    (h : ∀ (k : Fin e) (T : TMat), Ms[k.1]? = some T → P T (g k)) :
    ∃ top below ga gb, Ms.reverse = top :: below ∧ P top ga ∧ List.Forall₂ P below gb ∧
      hornerVal X gb ga = ∑ k : Fin e, X ^ k.1 • g k := by
  have hF : List.Forall₂ P Ms (List.ofFn g) := by
    rw [List.forall₂_iff_get]
    refine ⟨by simp [hl], ?_⟩
    intro i h1 h2
    have := h ⟨i, by omega⟩ Ms[i] (by simp)
    simpa using this
  have hR := List.rel_reverse hF
  revert hR
  cases hr : Ms.reverse with
  | nil => exact absurd (by simpa using hr) (fun h0 : Ms = [] => by subst h0; simp at hl; omega)
  | cons top below =>
    intro hR
    cases hg : (List.ofFn g).reverse with
    | nil => rw [hg] at hR; cases hR
    | cons ga gb =>
      rw [hg] at hR
      rw [List.forall₂_cons] at hR
      refine ⟨top, below, ga, gb, rfl, hR.1, hR.2, ?_⟩
      rw [hornerVal_eq]
      have e1 : List.ofFn g = gb.reverse ++ [ga] := by
        have := congrArg List.reverse hg
        simpa using this
      have e2 : e = gb.length + 1 := by
        have := congrArg List.length e1
        simpa using this
      subst e2
      rw [Fin.sum_univ_castSucc, add_comm]
      have e3 : ∀ k : Fin (gb.length + 1), g k = (gb.reverse ++ [ga]).getD k.1 0 := by
        intro k
        rw [← e1, List.getD_eq_getElem?_getD,
          List.getElem?_eq_getElem (by rw [List.length_ofFn]; exact k.2), List.getElem_ofFn]
        rfl
      congr 1
      · rw [Finset.sum_range]
        apply Finset.sum_congr rfl
        intro k _
        rw [e3, List.getD_eq_getElem?_getD, List.getD_eq_getElem?_getD, Fin.val_castSucc,
          List.getElem?_append_left (by simp)]
      · rw [e3]
        simp [List.getD_eq_getElem?_getD]

private theorem polyMat_sum (X : R) (M : Fin e → Matrix (Fin n) (Fin m) ℤ) :
    polyMat X M = ∑ k : Fin e, X ^ k.1 • castMat R (M k) := by
  ext i j
  rw [Matrix.sum_apply]
  rfl

/-- **C28.** `v·M`. -/
theorem C28_left_vec (X : R) {Ms : List TMat} {M : Fin e → Matrix (Fin n) (Fin m) ℤ}
    (he : e ≠ 0) (h : EHolds Ms M) (v : Fin n → R) :
    leftVecMultE e X (List.ofFn v) Ms = .ok (List.ofFn (Matrix.vecMul v (polyMat X M))) := by
  unfold leftVecMultE
  rw [if_neg (by rw [h.1]; omega)]
  obtain ⟨top, below, ga, gb, h1, h2, h3, h4⟩ := horner_prep X
    (fun T (w : Fin m → R) => leftVecMult (List.ofFn v) T = .ok (List.ofFn w))
    (fun k => Matrix.vecMul v (castMat R (M k))) h.1 he
    (fun k T hk => leftVecMult_eq (h.2 k T hk) v)
  rw [h1]
  simp only [h2, Res.ok_bind]
  rw [hornerLoop_eq X _ below gb h3, h4, polyMat_sum, Matrix.vecMul_sum]
  simp only [Matrix.vecMul_smul]

/-- **C28.** `M·v`. -/
theorem C28_right_vec (X : R) {Ms : List TMat} {M : Fin e → Matrix (Fin n) (Fin m) ℤ}
    (he : e ≠ 0) (h : EHolds Ms M) (v : Fin m → R) :
    rightVecMultE e X Ms (List.ofFn v) = .ok (List.ofFn (Matrix.mulVec (polyMat X M) v)) := by
  unfold rightVecMultE
  rw [if_neg (by rw [h.1]; omega)]
  obtain ⟨top, below, ga, gb, h1, h2, h3, h4⟩ := horner_prep X
    (fun T (w : Fin n → R) => rightVecMult T (List.ofFn v) = .ok (List.ofFn w))
    (fun k => Matrix.mulVec (castMat R (M k)) v) h.1 he
    (fun k T hk => rightVecMult_eq (h.2 k T hk) v)
  rw [h1]
  simp only [h2, Res.ok_bind]
  rw [hornerLoop_eq X _ below gb h3, h4, polyMat_sum, Matrix.sum_mulVec]
  simp only [Matrix.smul_mulVec]

/-- **C28.** `A·M`. -/
theorem C28_left_mat (X : R) {Ms : List TMat} {M : Fin e → Matrix (Fin n) (Fin m) ℤ}
    (he : e ≠ 0) (h : EHolds Ms M) (A : Matrix (Fin k) (Fin n) R) :
    leftMatMultE e X (toNMat A) Ms = .ok (toNMat (A * polyMat X M)) := by
  unfold leftMatMultE
  rw [if_neg (by rw [h.1]; omega)]
  obtain ⟨top, below, ga, gb, h1, h2, h3, h4⟩ := horner_prep X
    (fun T (w : Matrix (Fin k) (Fin m) R) => leftMatMult (toNMat A) T = .ok (toNMat w))
    (fun i => A * castMat R (M i)) h.1 he
    (fun k T hk => leftMatMult_eq (h.2 k T hk) A)
  rw [h1]
  simp only [h2, Res.ok_bind]
  rw [hornerLoopM_eq X _ below gb h3, h4, polyMat_sum, Matrix.mul_sum]
  simp only [Matrix.mul_smul]

/-- **C28.** `M·A`. -/
theorem C28_right_mat (X : R) {Ms : List TMat} {M : Fin e → Matrix (Fin n) (Fin m) ℤ}
    (he : e ≠ 0) (h : EHolds Ms M) (A : Matrix (Fin m) (Fin k) R) :
    rightMatMultE e X Ms (toNMat A) = .ok (toNMat (polyMat X M * A)) := by
  unfold rightMatMultE
  rw [if_neg (by rw [h.1]; omega)]
  obtain ⟨top, below, ga, gb, h1, h2, h3, h4⟩ := horner_prep X
    (fun T (w : Matrix (Fin n) (Fin k) R) => rightMatMult T (toNMat A) = .ok (toNMat w))
    (fun i => castMat R (M i) * A) h.1 he
    (fun k T hk => rightMatMult_eq (h.2 k T hk) A)
  rw [h1]
  simp only [h2, Res.ok_bind]
  rw [hornerLoopM_eq X _ below gb h3, h4, polyMat_sum, Matrix.sum_mul]
  simp only [Matrix.smul_mul]

/-- **C28.** A matrix that was not set up for the extension degree, or has the wrong shape,
throws. -/
theorem C28_mismatch (X : R) (Ms : List TMat) (v : List R) (A : NMat R)
    (h : Ms.length ≠ e ∨ e = 0) :
    leftVecMultE e X v Ms = .throw ∧ rightVecMultE e X Ms v = .throw ∧
    leftMatMultE e X A Ms = .throw ∧ rightMatMultE e X Ms A = .throw := by
  simp [leftVecMultE, rightVecMultE, leftMatMultE, rightMatMultE, h]

/-- **C28.** `setFromBytes(bytes,n,m)` on a `TernaryEMatrix`: coefficient matrix `k` is decoded
from the bytes at offset `k·n·⌈m/4⌉`. -/
theorem C28_decode (Ms : List TMat) (bytes : Bytes) (n m e : Nat) (hnm : 0 < n ∨ m = 0)
    (hlen : e * (n * ((m + 3) / 4)) ≤ bytes.length) :
    ∃ Ms', eSetFromBytesNM e Ms bytes n m = .ok Ms' ∧
      EHolds Ms' fun k : Fin e => decoded (bytes.drop (k.1 * (n * ((m + 3) / 4)))) n m := by
  refine ⟨_, by rw [eSetFromBytesNM_eq, if_pos hlen], by simp, ?_⟩
  intro k T hk
  simp only [List.getElem?_map, List.getElem?_range k.2, Option.map_some, Option.some.injEq] at hk
  subst hk
  apply decodedRows_holds _ hnm
  have : (k.1 + 1) * (n * ((m + 3) / 4)) ≤ e * (n * ((m + 3) / 4)) := Nat.mul_le_mul_right _ k.2
  rw [Nat.succ_mul] at this
  simp only [List.length_drop]
  omega

example : ∃ Ms', eSetFromBytesNM 2 [] [0x12, 0xf7, 0x59, 0xf6] 2 3 = .ok Ms' ∧
    rightVecMultE 2 (4 : ZMod 17) Ms' [1, 2, 3] = .ok [10, 6] := by
  obtain ⟨Ms, h1, h2⟩ := C28_decode [] [0x12, 0xf7, 0x59, 0xf6] 2 3 2 (by omega) (by decide)
  refine ⟨Ms, h1, ?_⟩
  have := C28_right_vec (4 : ZMod 17) (by omega) h2 ![1, 2, 3]
  refine Eq.trans this ?_
  decide +kernel

end

/-- **C29.** The challenge matrix: the code asks the transcript for `⌈n·m/4⌉` bytes but decoding
needs `n·⌈m/4⌉`.  With `pad = (-m) mod 4` unused entries per row, `newTernaryMatrix` stays inside
its buffer exactly when `n·pad ≤ 3`; otherwise it reads beyond the end of the buffer. -/
theorem C29_matrix (challenge : Nat → Bytes) (hc : ∀ k, (challenge k).length = k)
    (T : TMat) (n m : Nat) (hn : 0 < n) (hm : 0 < m) :
    (n * ((4 - m % 4) % 4) ≤ 3 →
      ∃ T', newTernaryMatrix challenge T n m = .ok T' ∧
        Holds T' (decoded (challenge ((n * m + 3) / 4)) n m)) ∧
    (3 < n * ((4 - m % 4) % 4) → newTernaryMatrix challenge T n m = .ub) := by
  have hq : 4 * ((m + 3) / 4) = m + (4 - m % 4) % 4 := by omega
  have hnq : 4 * (n * ((m + 3) / 4)) = n * m + n * ((4 - m % 4) % 4) := by
    rw [← Nat.mul_add, ← hq]; ring
  unfold newTernaryMatrix
  simp only [Nat.ne_of_gt hn, Nat.ne_of_gt hm, if_false, or_self]
  constructor
  · intro h
    exact C26_decode T _ n m (Or.inl hn) (by rw [hc]; omega)
  · intro h
    rw [C26_short_buffer, hc]
    omega

/-- **C29.** The same for the extension-field challenge matrices. -/
theorem C29_ematrix (challenge : Nat → Bytes) (hc : ∀ k, (challenge k).length = k)
    (Ms : List TMat) (e n m : Nat) (he : 0 < e) (hn : 0 < n) (hm : 0 < m) :
    (n * ((4 - m % 4) % 4) ≤ 3 → ∃ Ms', newTernaryEMatrix e challenge Ms n m = .ok Ms' ∧
      EHolds Ms' fun k : Fin e =>
        decoded ((challenge (e * ((n * m + 3) / 4))).drop (k.1 * (n * ((m + 3) / 4)))) n m) ∧
    (3 < n * ((4 - m % 4) % 4) → newTernaryEMatrix e challenge Ms n m = .ub) := by
  have hq : 4 * ((m + 3) / 4) = m + (4 - m % 4) % 4 := by omega
  have hnq : 4 * (n * ((m + 3) / 4)) = n * m + n * ((4 - m % 4) % 4) := by
    rw [← Nat.mul_add, ← hq]; ring
  have hiff : e * (n * ((m + 3) / 4)) ≤ e * ((n * m + 3) / 4) ↔
      n * ((m + 3) / 4) ≤ (n * m + 3) / 4 := by
    constructor
    · intro h; exact Nat.le_of_mul_le_mul_left h he
    · intro h; exact Nat.mul_le_mul_left e h
  unfold newTernaryEMatrix
  simp only [Nat.ne_of_gt hn, Nat.ne_of_gt hm, if_false, or_self]
  constructor
  · intro h
    exact C28_decode Ms _ n m e (Or.inl hn) (by rw [hc]; exact hiff.2 (by omega))
  · intro h
    rw [eSetFromBytesNM_eq, if_neg]
    rw [hc, hiff]
    omega

/-- **C29.** In particular columns in multiples of four are always safe, and a challenge matrix
with four or more rows and any other number of columns always over-reads. -/
theorem C29_multiple_of_four (challenge : Nat → Bytes) (hc : ∀ k, (challenge k).length = k)
    (T : TMat) (n m : Nat) (hn : 4 ≤ n) (hm : 0 < m) :
    newTernaryMatrix challenge T n m = .ub ↔ m % 4 ≠ 0 := by
  obtain ⟨h1, h2⟩ := C29_matrix challenge hc T n m (by omega) hm
  constructor
  · intro h h0
    obtain ⟨T', h3, -⟩ := h1 (by rw [h0]; simp)
    rw [h] at h3
    cases h3
  · intro h
    apply h2
    have : 1 ≤ (4 - m % 4) % 4 := by omega
    calc 3 < n * 1 := by omega
      _ ≤ _ := Nat.mul_le_mul_left n this

/-- When a dimension is given as 0 it is taken from the matrix itself. -/
theorem C29_default_shape (challenge : Nat → Bytes) (T : TMat) :
    newTernaryMatrix challenge T 0 0 = newTernaryMatrix challenge T T.length T.numCols := by
  unfold newTernaryMatrix
  by_cases h1 : T.length = 0 <;> by_cases h2 : T.numCols = 0 <;> simp [h1, h2]

/-- A 256×10 matrix, as asked for when proving about 10 parties, over-reads. -/
example : newTernaryMatrix (fun k => List.replicate k 0x12) [] 256 10 = .ub :=
  (C29_multiple_of_four _ (by simp) [] 256 10 (by omega) (by omega)).2 (by omega)
example : ∃ T', newTernaryMatrix (fun k => List.replicate k 0x12) [] 256 12 = .ok T' := by
  obtain ⟨T', h, -⟩ := (C29_matrix (fun k => List.replicate k 0x12) (by simp) [] 256 12
    (by omega) (by omega)).1 (by omega)
  exact ⟨T', h⟩

end Verif.Props
