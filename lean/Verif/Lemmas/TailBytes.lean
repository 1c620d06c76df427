/-
The product of a vector with the challenge matrix made from random bytes.
-/
import Verif.Lemmas.Tail
import Verif.Lemmas.Compress
import Verif.Lemmas.Batch

namespace Verif
open Spec Regev
open scoped BigOperators

/-- The bit pair with number `p` of a byte. -/
def pairCode (b : ℕ) (p : ℕ) : Fin 4 := ⟨b / 4 ^ p % 4, Nat.mod_lt _ (by norm_num)⟩

theorem pairCode_val : ∀ b < 256, ∀ p < 4, ofBits (b.testBit (2 * p)) (b.testBit (2 * p + 1)) = pairTern (pairCode b p) := by
  decide +kernel

theorem pairCode_inj : ∀ a < 256, ∀ b < 256, (∀ p < 4, pairCode a p = pairCode b p) → a = b := by
  intro a ha b hb h
  have h0 := Fin.val_eq_of_eq (h 0 (by norm_num))
  have h1 := Fin.val_eq_of_eq (h 1 (by norm_num))
  have h2 := Fin.val_eq_of_eq (h 2 (by norm_num))
  have h3 := Fin.val_eq_of_eq (h 3 (by norm_num))
  simp only [pairCode] at h0 h1 h2 h3
  norm_num at h0 h1 h2 h3
  omega

/-- The bits behind entry `(r,c)` of coefficient matrix `k`. -/
def cellCode {nr nc : ℕ} (buf : Fin (challengeBytes nr nc) → Fin 256) (k r c : ℕ) : Fin 4 :=
  pairCode ((bufBytes buf).getD (k * (nr * ((nc + 3) / 4)) + (r * ((nc + 3) / 4) + c / 4)) 0).toNat (c % 4)

theorem ternaryOf_code {q nr nc : ℕ} (buf : Fin (challengeBytes nr nc) → Fin 256) (r c : ℕ) (k : Fin 2) :
    (ternaryOf (q := q) (bufBytes buf) nr nc r c).c k = ((pairTern (cellCode buf k r c) : ℤ) : ZMod q) := by
  unfold ternaryOf ternEntry cellCode
  simp only
  congr 1
  rw [pairCode_val _ (UInt8.toNat_lt _) _ (Nat.mod_lt _ (by norm_num))]
  rw [List.getD_eq_getElem?_getD, List.getElem?_drop, ← List.getD_eq_getElem?_getD]

/-- The random bits of the whole matrix. -/
def cells {nr nc : ℕ} (buf : Fin (challengeBytes nr nc) → Fin 256) : Fin nr → Fin nc → Fin 4 × Fin 4 :=
  fun r c => (cellCode buf 0 r c, cellCode buf 1 r c)

/-- With a number of columns divisible by 4, every bit of the bytes is used exactly once. -/
theorem cells_bijective {nr nc : ℕ} (h4 : 4 ∣ nc) : Function.Bijective (cells (nr := nr) (nc := nc)) := by
  rw [Fintype.bijective_iff_injective_and_card]
  obtain ⟨w, rfl⟩ := h4
  have hw : (4 * w + 3) / 4 = w := by omega
  have hN : challengeBytes nr (4 * w) = 2 * (nr * w) := by
    unfold challengeBytes
    rw [show nr * (4 * w) + 3 = 4 * (nr * w) + 3 by ring]
    omega
  constructor
  · intro a b h
    funext t
    apply Fin.ext
    have ht : t.val < 2 * (nr * w) := lt_of_lt_of_eq t.2 hN
    refine pairCode_inj _ (a t).2 _ (b t).2 fun p hp => ?_
    have hpos : 0 < nr * w := by omega
    have hw0 : 0 < w := Nat.pos_of_mul_pos_left hpos
    obtain ⟨k, hk⟩ : ∃ k, k = t.val / (nr * w) := ⟨_, rfl⟩
    obtain ⟨u, hu⟩ : ∃ u, u = t.val % (nr * w) := ⟨_, rfl⟩
    have hu' : u < nr * w := by rw [hu]; exact Nat.mod_lt _ hpos
    have htk : t.val = k * (nr * w) + u := by rw [hk, hu]; exact (Nat.div_add_mod' _ _).symm
    have hk2 : k < 2 := by rw [hk]; exact Nat.div_lt_of_lt_mul (by omega)
    have hr : u / w < nr := Nat.div_lt_of_lt_mul (by rw [mul_comm]; exact hu')
    have hc : 4 * (u % w) + p < 4 * w := by have := Nat.mod_lt u hw0; omega
    have hcell : ∀ buf : Fin (challengeBytes nr (4 * w)) → Fin 256,
        cellCode buf k (u / w) (4 * (u % w) + p) = pairCode (buf t) p := by
      intro buf
      unfold cellCode
      rw [hw, show (4 * (u % w) + p) / 4 = u % w by omega, show (4 * (u % w) + p) % 4 = p by omega,
        Nat.div_add_mod', ← htk, bufBytes_getD]
    have e := congrFun (congrFun h ⟨u / w, hr⟩) ⟨4 * (u % w) + p, hc⟩
    unfold cells at e
    obtain ⟨e0, e1⟩ := Prod.mk.inj e
    rw [← hcell a, ← hcell b]
    interval_cases k
    · exact e0
    · exact e1
  · simp only [Fintype.card_pi, Fintype.card_fin, Fintype.card_prod, Finset.prod_const, Finset.card_univ]
    rw [hN, show (256 : ℕ) = 2 ^ 8 by norm_num, show (4 * 4 : ℕ) = 2 ^ 4 by norm_num, ← pow_mul, ← pow_mul, ← pow_mul]
    congr 1
    ring

/-- Counting bytes is counting matrices. -/
theorem card_cells {nr nc : ℕ} (h4 : 4 ∣ nc) (p : (Fin nr → Fin nc → Fin 4 × Fin 4) → Prop) :
    Nat.card {buf : Fin (challengeBytes nr nc) → Fin 256 // p (cells buf)} = Nat.card {e // p e} :=
  Nat.card_congr (Equiv.subtypeEquiv (Equiv.ofBijective _ (cells_bijective h4)) fun _ => Iff.rfl)

theorem card_bytes {nr nc : ℕ} (h4 : 4 ∣ nc) : 256 ^ challengeBytes nr nc = (16 ^ nc) ^ nr := by
  have h := Fintype.card_of_bijective (cells_bijective (nr := nr) h4)
  simp only [Fintype.card_pi, Fintype.card_fin, Fintype.card_prod, Finset.prod_const, Finset.card_univ] at h
  exact h

section
variable {q : ℕ} [Fact q.Prime]

/-- The two coordinates of the product with one column, modulo `q`. -/
theorem dot_le {n : ℕ} (v : ℕ → Elt (ZMod q) 2) (ρ : ℕ → Elt (ZMod q) 2) (e : Fin n → Fin 4 × Fin 4)
    (hρ : ∀ i : Fin n, (ρ i).c 0 = ((pairTern (e i).1 : ℤ) : ZMod q) ∧ (ρ i).c 1 = ((pairTern (e i).2 : ℤ) : ZMod q)) :
    ((∑ s : Fin 2, ((∑ i ∈ Finset.range n, v i * ρ i).c s).valMinAbs ^ 2 : ℤ) : ℝ) ≤
      prodRe (fun i : Fin n => (((v i).c 0).valMinAbs : ℝ)) (fun i : Fin n => (((v i).c 1).valMinAbs : ℝ)) e ^ 2 +
      prodIm (fun i : Fin n => (((v i).c 0).valMinAbs : ℝ)) (fun i : Fin n => (((v i).c 1).valMinAbs : ℝ)) e ^ 2 := by
  rw [Fin.sum_univ_two, sum_c, sum_c, Finset.sum_range, Finset.sum_range]
  have h0 : |(∑ i : Fin n, ((v i * ρ i).c 0)).valMinAbs| ≤
      |∑ i : Fin n, (pairTern (e i).1 * ((v i).c 0).valMinAbs - pairTern (e i).2 * ((v i).c 1).valMinAbs)| := by
    refine abs_le_of_cast ?_
    push_cast
    refine Finset.sum_congr rfl fun i _ => ?_
    rw [mul_c0, (hρ i).1, (hρ i).2]
    ring
  have h1 : |(∑ i : Fin n, ((v i * ρ i).c 1)).valMinAbs| ≤
      |∑ i : Fin n, (pairTern (e i).2 * ((v i).c 0).valMinAbs + pairTern (e i).1 * ((v i).c 1).valMinAbs)| := by
    refine abs_le_of_cast ?_
    push_cast
    refine Finset.sum_congr rfl fun i _ => ?_
    rw [mul_c1, (hρ i).1, (hρ i).2]
    ring
  have h := add_le_add (sq_le_sq.2 h0) (sq_le_sq.2 h1)
  have h' := (Int.cast_le (R := ℝ)).2 h
  refine h'.trans (le_of_eq ?_)
  unfold prodRe prodIm
  push_cast
  rfl

end
end Verif
