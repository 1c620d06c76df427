/-
Property C95: products with ternary matrices whose result is also the operand.
-/
import Verif.Lemmas.TernaryAlias
import Verif.Props.Ternary

namespace Verif.Props
open Verif Verif.Spec

section
variable {R : Type} [CommRing R] {n m k e : Nat}

/-- **C95.** Into an object that is not the operand, whatever it held before, each product is the
product of C27. -/
theorem C95_apart {T : TMat} {M : Matrix (Fin n) (Fin m) ℤ} (h : Holds T M)
    (before : List R) (spare : List (List R)) (beforeM : NMat R) (hr : Rect spare beforeM) :
    (∀ v : Fin n → R, leftVecMultMem false before (List.ofFn v) T =
      .ok (List.ofFn (Matrix.vecMul v (castMat R M)))) ∧
    (∀ v : Fin m → R, rightVecMultMem false before T (List.ofFn v) =
      .ok (List.ofFn (Matrix.mulVec (castMat R M) v))) ∧
    (∀ A : Matrix (Fin k) (Fin n) R, leftMatMultMem false spare beforeM (toNMat A) T =
      .ok (toNMat (A * castMat R M))) ∧
    (∀ A : Matrix (Fin m) (Fin k) R, rightMatMultMem false spare beforeM T (toNMat A) =
      .ok (toNMat (castMat R M * A))) := by
  refine ⟨fun v => ?_, fun v => ?_, fun A => ?_, fun A => rightMatMultMem_apart h hr A⟩
  · rw [leftVecMultMem_apart, leftVecMult_eq h]
  · rw [rightVecMultMem_apart, rightVecMult_eq h]
  · rw [leftMatMultMem_apart, leftMatMult_eq h]

/-- **C95.** The same for matrices over the extension: C28. -/
theorem C95_ext_apart (X : R) {Ms : List TMat} {M : Fin e → Matrix (Fin n) (Fin m) ℤ}
    (he : e ≠ 0) (h : EHolds Ms M)
    (before : List R) (spare : List (List R)) (beforeM : NMat R) (hr : Rect spare beforeM) :
    (∀ v : Fin n → R, leftVecMultEMem false e X before (List.ofFn v) Ms =
      .ok (List.ofFn (Matrix.vecMul v (polyMat X M)))) ∧
    (∀ v : Fin m → R, rightVecMultEMem false e X before Ms (List.ofFn v) =
      .ok (List.ofFn (Matrix.mulVec (polyMat X M) v))) ∧
    (∀ A : Matrix (Fin k) (Fin n) R, leftMatMultEMem false e X spare beforeM (toNMat A) Ms =
      .ok (toNMat (A * polyMat X M))) ∧
    (∀ A : Matrix (Fin m) (Fin k) R, rightMatMultEMem false e X spare beforeM Ms (toNMat A) =
      .ok (toNMat (polyMat X M * A))) := by
  have hne : Ms.reverse ≠ [] := by
    intro h0
    have : Ms = [] := by simpa using h0
    have := h.1
    simp_all
  refine ⟨fun v => ?_, fun v => ?_, fun A => ?_, fun A => ?_⟩
  · rw [← C28_left_vec X he h v]
    unfold leftVecMultEMem leftVecMultE
    simp only [leftVecMultMem_apart, hornerNow_apart]
    cases Ms.reverse <;> rfl
  · rw [← C28_right_vec X he h v]
    unfold rightVecMultEMem rightVecMultE
    simp only [rightVecMultMem_apart, hornerNow_apart]
    cases Ms.reverse <;> rfl
  · rw [← C28_left_mat X he h A]
    unfold leftMatMultEMem leftMatMultE
    simp only [leftMatMultMem_apart, hornerNowM_apart]
    cases Ms.reverse <;> rfl
  · rw [← C28_right_mat X he h A]
    unfold rightMatMultEMem rightMatMultE
    split
    · rfl
    · have hmem : ∀ T ∈ Ms.reverse, ∃ M' : Matrix (Fin n) (Fin m) ℤ, Holds T M' := by
        intro T hT
        obtain ⟨i, hi, rfl⟩ := List.mem_iff_getElem.1 (List.mem_reverse.1 hT)
        exact ⟨_, h.2 ⟨i, by rw [← h.1]; exact hi⟩ _ (by simp)⟩
      cases hrev : Ms.reverse with
      | nil => exact absurd hrev hne
      | cons top below =>
        rw [hrev] at hmem
        obtain ⟨Mt, ht⟩ := hmem top (by simp)
        simp only
        rw [rightMatMultMem_apart ht hr, rightMatMult_eq ht, Res.ok_bind, Res.ok_bind,
          hornerNowM_apart]
        have hb : ∀ T ∈ below, ∃ M' : Matrix (Fin n) (Fin m) ℤ, Holds T M' :=
          fun T hT => hmem T (by simp [hT])
        generalize toNMat (castMat R Mt * A) = acc
        clear hrev hmem
        induction below generalizing acc with
        | nil => rfl
        | cons T below ih =>
          obtain ⟨M', hM'⟩ := hb T (by simp)
          unfold hornerLoopM
          simp only [rightMatMultMem_apart hM' (show Rect [] (⟨0, []⟩ : NMat R) by
            intro r hr; simp at hr), rightMatMult_eq hM', Res.ok_bind]
          cases nmAdd (nmScale X acc) (toNMat (castMat R M' * A)) with
          | throw => rfl
          | ub => rfl
          | ok s => exact ih (fun T hT => hb T (by simp [hT])) s

/-- **C95.** `leftVecMult(v,v,M)`: no exception, the vector is overwritten with zeros - if `M`
has more columns than rows the program reads beyond the rows of `M`. -/
theorem C95_left_vec {T : TMat} {M : Matrix (Fin n) (Fin m) ℤ} (h : Holds T M) (v : List R)
    (hv : v.length = n) :
    leftVecMultMem true v v T = if m ≤ n then .ok (List.replicate m 0) else .ub :=
  leftVecMultMem_shared h v hv

/-- **C95.** `rightVecMult(v,M,v)`, for a matrix with at least one row made by `setFromBytes`:
zeros, and beyond the (rounded up) number of columns an out-of-bounds read. -/
theorem C95_right_vec (T T' : TMat) (bytes : Bytes) (hn : 0 < n)
    (h : T.setFromBytesNM bytes n m = .ok T') (v : List R) (hv : v.length = m) :
    rightVecMultMem true v T' v =
      if n ≤ 4 * ((m + 3) / 4) then .ok (List.replicate n 0) else .ub := by
  rw [setFromBytesNM_eq] at h
  split at h
  · rename_i hlen
    simp only [Res.ok.injEq] at h
    subst h
    exact rightVecMultMem_shared hn hlen v hv
  · cases h

/-- **C95.** `leftMatMult(A,A,M)`: with a square `M` the matrix `A` is overwritten with zeros,
otherwise there is an exception (after `A` has been overwritten). -/
theorem C95_left_mat {T : TMat} {M : Matrix (Fin n) (Fin m) ℤ} (h : Holds T M)
    (spare : List (List R)) (A : Matrix (Fin k) (Fin n) R) (hk : 0 < k) :
    leftMatMultMem true spare (toNMat A) (toNMat A) T =
      if n = m then .ok (toNMat (0 : Matrix (Fin k) (Fin m) R)) else .throw := by
  split
  · subst_vars
    exact leftMatMultMem_shared h spare A
  · rename_i hnm
    exact leftMatMultMem_shared_ne h hk hnm spare A

/-- **C95.** `rightMatMult(A,M,A)` works in place exactly if `M` is square. -/
theorem C95_right_mat {T : TMat} {M : Matrix (Fin n) (Fin m) ℤ} (h : Holds T M)
    (spare : List (List R)) (A : Matrix (Fin m) (Fin k) R) (hk : 0 < k)
    (hr : Rect spare (toNMat A)) :
    rightMatMultMem true spare (toNMat A) T (toNMat A) =
      if n = m then .ok (toNMat (castMat R M * A)) else .throw := by
  split
  · subst_vars
    exact rightMatMultMem_shared h spare A
  · rename_i hnm
    exact rightMatMultMem_shared_ne h hk hnm hr

private theorem reverse_holds {Ms : List TMat} {M : Fin (e + 1) → Matrix (Fin n) (Fin m) ℤ}
    (h : EHolds Ms M) :
    ∃ top below, Ms.reverse = top :: below ∧ Holds top (M (Fin.last e)) ∧
      List.Forall₂ (fun T M => Holds T M) below
        (List.ofFn fun i : Fin e => M i.castSucc).reverse := by
  have hF : List.Forall₂ (fun T (M : Matrix (Fin n) (Fin m) ℤ) => Holds T M) Ms (List.ofFn M) := by
    rw [List.forall₂_iff_get]
    refine ⟨by simp [h.1], ?_⟩
    intro i h1 h2
    have := h.2 ⟨i, by simpa using h2⟩ Ms[i] (by simp)
    simp only [List.get_eq_getElem, List.getElem_ofFn]
    exact this
  have hR := List.rel_reverse hF
  have e1 : (List.ofFn M).reverse = M (Fin.last e) ::
      (List.ofFn fun i : Fin e => M i.castSucc).reverse := by
    rw [List.ofFn_succ_last]
    simp
  rw [e1] at hR
  cases hr : Ms.reverse with
  | nil => rw [hr] at hR; cases hR
  | cons top below =>
    rw [hr, List.forall₂_cons] at hR
    exact ⟨top, below, rfl, hR.1, hR.2⟩

/-- **C95.** The same over the extension, for square matrices: the products with a vector and
`A·M` into the operand give zeros. -/
theorem C95_ext_zero (X : R) {Ms : List TMat} {M : Fin (e + 1) → Matrix (Fin n) (Fin n) ℤ}
    (h : EHolds Ms M) (v : List R) (hv : v.length = n) (spare : List (List R))
    (A : Matrix (Fin k) (Fin n) R) :
    leftVecMultEMem true (e + 1) X v v Ms = .ok (List.replicate n 0) ∧
    rightVecMultEMem true (e + 1) X v Ms v = .ok (List.replicate n 0) ∧
    leftMatMultEMem true (e + 1) X spare (toNMat A) (toNMat A) Ms =
      .ok (toNMat (0 : Matrix (Fin k) (Fin n) R)) := by
  obtain ⟨top, below, hr, ht, hb⟩ := reverse_holds h
  have hall : ∀ T ∈ below, ∃ M' : Matrix (Fin n) (Fin n) ℤ, Holds T M' := by
    intro T hT
    obtain ⟨i, hi, rfl⟩ := List.mem_iff_getElem.1 hT
    exact ⟨_, (List.forall₂_iff_get.1 hb).2 i hi (by rw [← hb.length_eq]; exact hi)⟩
  refine ⟨?_, ?_, ?_⟩
  · unfold leftVecMultEMem
    rw [if_neg (by rw [h.1]; omega), hr]
    simp only
    rw [leftVecMultMem_shared ht v hv, if_pos (le_refl _), Res.ok_bind]
    apply hornerNow_zero
    intro T hT
    obtain ⟨M', hM'⟩ := hall T hT
    rw [leftVecMultMem_apart, zeros_ofFn, leftVecMult_eq hM']
    simp
  · unfold rightVecMultEMem
    rw [if_neg (by rw [h.1]; omega), hr]
    simp only
    rw [rightVecMultMem_shared_le ht (le_refl _) v hv, Res.ok_bind]
    apply hornerNow_zero
    intro T hT
    obtain ⟨M', hM'⟩ := hall T hT
    rw [rightVecMultMem_apart, zeros_ofFn, rightVecMult_eq hM']
    simp
  · unfold leftMatMultEMem
    rw [if_neg (by rw [h.1]; omega), hr]
    simp only
    rw [leftMatMultMem_shared ht spare A, Res.ok_bind]
    apply hornerNowM_zero
    intro T hT
    obtain ⟨M', hM'⟩ := hall T hT
    rw [leftMatMultMem_apart, leftMatMult_eq hM']
    simp

/-- **C95.** `rightMatMult(A,M,A)` over the extension, with a square `M = Σ M_i·X^i`: instead of
`M·A` the caller gets `(X+M_0)·(X+M_1)···(X+M_{e-1})·M_e·A`. -/
theorem C95_ext_right_mat (X : R) {Ms : List TMat} {M : Fin (e + 1) → Matrix (Fin n) (Fin n) ℤ}
    (h : EHolds Ms M) (spare : List (List R)) (A : Matrix (Fin n) (Fin k) R) :
    rightMatMultEMem true (e + 1) X spare (toNMat A) Ms (toNMat A) =
      .ok (toNMat ((List.ofFn fun i : Fin e =>
        X • (1 : Matrix (Fin n) (Fin n) R) + castMat R (M i.castSucc)).prod *
          (castMat R (M (Fin.last e)) * A))) := by
  obtain ⟨top, below, hr, ht, hb⟩ := reverse_holds h
  unfold rightMatMultEMem
  rw [if_neg (by rw [h.1]; omega), hr]
  simp only
  rw [rightMatMultMem_shared ht spare A, Res.ok_bind, hornerNowM_prod X _ hb]
  rw [List.reverse_reverse, List.map_ofFn]
  rfl

/-- **C95.** For the quadratic extension the difference to the product is `M_0·(M_1-1)·A`. -/
theorem C95_ext_two (X : R) {Ms : List TMat} {M : Fin 2 → Matrix (Fin n) (Fin n) ℤ}
    (h : EHolds Ms M) (spare : List (List R)) (A : Matrix (Fin n) (Fin k) R) :
    rightMatMultEMem true 2 X spare (toNMat A) Ms (toNMat A) =
      .ok (toNMat (polyMat X M * A + castMat R (M 0) * (castMat R (M 1) - 1) * A)) := by
  rw [C95_ext_right_mat (e := 1) X h spare A]
  congr 2
  have : polyMat X M = castMat R (M 0) + X • castMat R (M 1) := by
    ext i j
    simp [polyMat, castMat, Fin.sum_univ_two]
  rw [this]
  simp only [List.ofFn_succ, List.ofFn_zero, List.prod_cons, List.prod_nil, mul_one]
  have h1 : (Fin.last 1 : Fin 2) = 1 := rfl
  have h0 : ((0 : Fin 1).castSucc : Fin 2) = 0 := rfl
  rw [h1, h0]
  rw [← Matrix.mul_assoc, ← Matrix.add_mul]
  congr 1
  rw [Matrix.add_mul, Matrix.mul_sub, Matrix.smul_mul, Matrix.one_mul, Matrix.mul_one]
  rw [add_comm (castMat R (M 0)), add_assoc, add_sub_cancel]

end

/-- Non-vacuity: the vector (3,5) and a 2×2 matrix over `ZMod 17`, where `v·M` is not zero. -/
example : ∃ T, Holds T (decoded [0x12, 0xf7] 2 2) ∧
    leftVecMultMem true [(3 : ZMod 17), 5] [3, 5] T = .ok [0, 0] ∧
    leftVecMultMem false [] [(3 : ZMod 17), 5] T = .ok [14, 5] := by
  obtain ⟨T, -, h⟩ := C26_decode [] [0x12, 0xf7] 2 2 (by omega) (by decide)
  refine ⟨T, h, C95_left_vec h _ rfl, ?_⟩
  refine Eq.trans ((C95_apart (k := 1) h [] [] ⟨0, []⟩ (by intro r hr; simp at hr)).1 ![3, 5]) ?_
  decide +kernel

/-- Non-vacuity: in place, the 1×1 matrix `M_0 + M_1·X` with `M_0 = 1`, `M_1 = -1` over
`ZMod 17` multiplies 1 by `-(X+1)` instead of `1-X`. -/
example : ∃ Ms M, EHolds Ms (M : Fin 2 → Matrix (Fin 1) (Fin 1) ℤ) ∧
    rightMatMultEMem true 2 (4 : ZMod 17) [] ⟨1, [[1]]⟩ Ms ⟨1, [[1]]⟩ =
      .ok ⟨1, [[12]]⟩ ∧
    rightMatMultEMem false 2 (4 : ZMod 17) [] ⟨0, []⟩ Ms ⟨1, [[1]]⟩ =
      .ok ⟨1, [[14]]⟩ := by
  obtain ⟨Ms, -, h⟩ := C28_decode [] [0x01, 0x02] 1 1 2 (by omega) (by decide)
  refine ⟨Ms, _, h, ?_, ?_⟩
  · refine Eq.trans (C95_ext_two (k := 1) (4 : ZMod 17) h [] fun _ _ => 1) ?_
    unfold toNMat
    congr 2
  · refine Eq.trans ((C95_ext_apart (k := 1) (4 : ZMod 17) (by omega) h [] [] ⟨0, []⟩
      (by intro r hr; simp at hr)).2.2.2 fun _ _ => 1) ?_
    unfold toNMat
    congr 2

end Verif.Props
