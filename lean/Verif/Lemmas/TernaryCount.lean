/-
Counting the byte buffers that decode to a given ternary matrix.
-/
import Verif.Lemmas.Ternary
import Mathlib.Data.Fintype.Pi
import Mathlib.Data.Fintype.BigOperators
import Mathlib.Data.Fin.VecNotation
import Mathlib.SetTheory.Cardinal.Finite

namespace Verif
open Verif.Spec

/-- a constraint on one entry: 0,1,2 mean "equal to -1, 0, 1", 3 means no constraint -/
def tst (o : Fin 4) (x : ℤ) : Bool := o == 3 || (o.1 : ℤ) - 1 == x
/-- number of bit pairs that satisfy the constraint -/
def wt (o : Fin 4) : ℕ := match o with | 0 => 1 | 1 => 2 | 2 => 1 | 3 => 4

theorem byte_count : ∀ a b c d : Fin 4,
    ((List.range 256).countP fun n => tst a (ofBits (n.testBit 0) (n.testBit 1)) &&
      tst b (ofBits (n.testBit 2) (n.testBit 3)) && tst c (ofBits (n.testBit 4) (n.testBit 5)) &&
      tst d (ofBits (n.testBit 6) (n.testBit 7))) = wt a * wt b * wt c * wt d := by
  decide +kernel

theorem card_filter_fin (N : ℕ) (p : ℕ → Bool) :
    (Finset.univ.filter fun b : Fin N => p b.1 = true).card = (List.range N).countP p := by
  have h1 : ((Finset.range N).filter fun b => p b = true).card = (List.range N).countP p := by
    induction N with
    | zero => simp
    | succ N ih =>
      rw [Finset.range_add_one, Finset.filter_insert, List.range_succ, List.countP_append, ← ih]
      cases h : p N <;> simp [h]
  rw [← h1]
  apply Finset.card_bij (fun a _ => a.1)
  · intro a ha; simpa using ha
  · intro a _ b _ h; exact Fin.ext h
  · intro b hb
    simp only [Finset.mem_filter, Finset.mem_range] at hb
    exact ⟨⟨b, hb.1⟩, by simpa using hb.2, rfl⟩

/-- value of the bit pair `j` of `b` -/
def pairVal (b : ℕ) (j : ℕ) : ℤ := ofBits (b.testBit (2 * j)) (b.testBit (2 * j + 1))

theorem byte_card (o : Fin 4 → Fin 4) :
    (Finset.univ.filter fun b : Fin 256 => ∀ j : Fin 4, tst (o j) (pairVal b j) = true).card =
      ∏ j, wt (o j) := by
  have := card_filter_fin 256 (fun n => tst (o 0) (ofBits (n.testBit 0) (n.testBit 1)) &&
      tst (o 1) (ofBits (n.testBit 2) (n.testBit 3)) &&
      tst (o 2) (ofBits (n.testBit 4) (n.testBit 5)) &&
      tst (o 3) (ofBits (n.testBit 6) (n.testBit 7)))
  rw [byte_count] at this
  rw [Fin.prod_univ_four, ← this]
  congr 1
  ext b
  simp only [Finset.mem_filter, Finset.mem_univ, true_and, Bool.and_eq_true, Fin.forall_fin_succ,
    pairVal]
  simp
  tauto

theorem prod_range_mul {A : Type} [CommMonoid A] (n w : ℕ) (f : ℕ → ℕ → A) :
    ∏ k ∈ Finset.range (n * w), f (k / w) (k % w) =
      ∏ r ∈ Finset.range n, ∏ q ∈ Finset.range w, f r q := by
  induction n with
  | zero => simp
  | succ n ih =>
    rw [Nat.succ_mul, Finset.prod_range_add, ih, Finset.prod_range_succ]
    congr 1
    apply Finset.prod_congr rfl
    intro q hq
    rw [Finset.mem_range] at hq
    rw [Nat.mul_comm n w, Nat.mul_add_div (by omega), Nat.mul_add_mod, Nat.mod_eq_of_lt hq,
      Nat.div_eq_of_lt hq, Nat.add_zero]

/-- the constraint on entry `(r,c)` -/
def entryCon {n m : ℕ} (M : Matrix (Fin n) (Fin m) ℤ) (r c : ℕ) : Fin 4 :=
  if h : r < n ∧ c < m then
    (if M ⟨r, h.1⟩ ⟨c, h.2⟩ = -1 then 0 else if M ⟨r, h.1⟩ ⟨c, h.2⟩ = 0 then 1 else 2) else 3

theorem decoded_eq_iff {n m : ℕ} (M : Matrix (Fin n) (Fin m) ℤ)
    (hM : ∀ i j, M i j = -1 ∨ M i j = 0 ∨ M i j = 1)
    (buf : Fin (n * ((m + 3) / 4)) → Fin 256) :
    decoded (List.ofFn fun k => UInt8.ofFin (buf k)) n m = M ↔
      ∀ k, ∀ j : Fin 4, tst (entryCon M (k.1 / ((m + 3) / 4)) (4 * (k.1 % ((m + 3) / 4)) + j))
        (pairVal (buf k) j) = true := by
  obtain ⟨w, hw⟩ : ∃ w, w = (m + 3) / 4 := ⟨_, rfl⟩
  revert buf
  rw [← hw]
  intro buf
  have key : ∀ (i : Fin n) (c : Fin m) (hk : i.1 * w + c.1 / 4 < n * w),
      decoded (List.ofFn fun k => UInt8.ofFin (buf k)) n m i c =
        pairVal (buf ⟨i.1 * w + c.1 / 4, hk⟩) (c.1 % 4) := by
    intro i c hk
    simp only [decoded, ← hw, pairVal]
    rw [List.getD_eq_getElem?_getD, List.getElem?_eq_getElem (by simpa using hk)]
    simp
  have hlt : ∀ (i : Fin n) (c : Fin m), i.1 * w + c.1 / 4 < n * w := by
    intro i c
    have h1 : i.1 * w + w ≤ n * w := by
      rw [← Nat.succ_mul]; exact Nat.mul_le_mul_right _ i.2
    have := c.2
    omega
  have htst : ∀ (i : Fin n) (c : Fin m) (x : ℤ), tst (entryCon M i c) x = true ↔ x = M i c := by
    intro i c x
    unfold entryCon tst
    rw [dif_pos ⟨i.2, c.2⟩]
    rcases hM i c with h | h | h <;> simp [h] <;> omega
  constructor
  · intro h k j
    by_cases hc : 4 * (k.1 % w) + j.1 < m
    · have hwp : 0 < w := by omega
      have hr : k.1 / w < n := by
        apply Nat.div_lt_of_lt_mul
        exact lt_of_lt_of_eq k.2 (Nat.mul_comm n w)
      have e := key ⟨k.1 / w, hr⟩ ⟨4 * (k.1 % w) + j.1, hc⟩ (hlt _ _)
      rw [h] at e
      have e2 : (k.1 / w) * w + (4 * (k.1 % w) + j.1) / 4 = k.1 := by
        have : (4 * (k.1 % w) + j.1) / 4 = k.1 % w := by have := j.2; omega
        rw [this]
        exact Nat.div_add_mod' k.1 w
      have e3 : (4 * (k.1 % w) + j.1) % 4 = j.1 := by have := j.2; omega
      simp only [e2, e3] at e
      exact (htst ⟨k.1 / w, hr⟩ ⟨4 * (k.1 % w) + j.1, hc⟩ _).2 e.symm
    · unfold entryCon
      rw [dif_neg (by omega)]
      rfl
  · intro h
    ext i c
    have := h ⟨i.1 * w + c.1 / 4, hlt i c⟩ ⟨c.1 % 4, Nat.mod_lt _ (by omega)⟩
    have hc4 : c.1 / 4 < w := by have := c.2; omega
    have e1 : (i.1 * w + c.1 / 4) / w = i.1 := by
      rw [Nat.mul_comm, Nat.mul_add_div (by omega), Nat.div_eq_of_lt hc4, Nat.add_zero]
    have e2 : (i.1 * w + c.1 / 4) % w = c.1 / 4 := by
      rw [Nat.mul_comm, Nat.mul_add_mod, Nat.mod_eq_of_lt hc4]
    simp only [e1, e2, Nat.div_add_mod] at this
    rw [key i c (hlt i c)]
    exact (htst i c _).1 this

theorem decoded_count {n m : ℕ} (M : Matrix (Fin n) (Fin m) ℤ)
    (hM : ∀ i j, M i j = -1 ∨ M i j = 0 ∨ M i j = 1) :
    Nat.card {buf : Fin (n * ((m + 3) / 4)) → Fin 256 //
      decoded (List.ofFn fun k => UInt8.ofFin (buf k)) n m = M} * 4 ^ (n * m) =
      256 ^ (n * ((m + 3) / 4)) * ∏ i, ∏ j, if M i j = 0 then 2 else 1 := by
  obtain ⟨w, hw⟩ : ∃ w, w = (m + 3) / 4 := ⟨_, rfl⟩
  classical
  rw [Nat.card_eq_fintype_card, Fintype.card_subtype]
  have h1 : (Finset.univ.filter fun buf : Fin (n * ((m + 3) / 4)) → Fin 256 =>
      decoded (List.ofFn fun k => UInt8.ofFin (buf k)) n m = M) =
      Fintype.piFinset fun k : Fin (n * ((m + 3) / 4)) => Finset.univ.filter fun b : Fin 256 =>
        ∀ j : Fin 4, tst (entryCon M (k.1 / ((m + 3) / 4)) (4 * (k.1 % ((m + 3) / 4)) + j))
          (pairVal b j) = true := by
    ext buf
    simp only [Finset.mem_filter, Finset.mem_univ, true_and, Fintype.mem_piFinset]
    exact decoded_eq_iff M hM buf
  rw [h1, Fintype.card_piFinset]
  simp only [byte_card]
  rw [← hw]
  have h2 : ∏ k : Fin (n * w), ∏ j : Fin 4, wt (entryCon M (k.1 / w) (4 * (k.1 % w) + j)) =
      ∏ r ∈ Finset.range n, ∏ c ∈ Finset.range (w * 4), wt (entryCon M r c) := by
    rw [← Finset.prod_range
      (fun k => ∏ j : Fin 4, wt (entryCon M (k / w) (4 * (k % w) + j))),
      prod_range_mul n w (fun r q => ∏ j : Fin 4, wt (entryCon M r (4 * q + j)))]
    apply Finset.prod_congr rfl
    intro r _
    have h5 := prod_range_mul w 4 (fun q j => wt (entryCon M r (4 * q + j)))
    simp only [Nat.div_add_mod] at h5
    rw [h5]
    apply Finset.prod_congr rfl
    intro q _
    rw [Finset.prod_range]
  rw [h2]
  have h3 : ∀ r ∈ Finset.range n, ∏ c ∈ Finset.range (w * 4), wt (entryCon M r c) =
      (∏ c ∈ Finset.range m, wt (entryCon M r c)) * 4 ^ (w * 4 - m) := by
    intro r _
    obtain ⟨p, hp⟩ : ∃ p, w * 4 = m + p := ⟨w * 4 - m, by omega⟩
    rw [hp, Finset.prod_range_add, Nat.add_sub_cancel_left]
    congr 1
    rw [Finset.prod_eq_pow_card (b := 4), Finset.card_range]
    intro c _
    unfold entryCon
    rw [dif_neg (by omega)]
    rfl
  rw [Finset.prod_congr rfl h3, Finset.prod_mul_distrib, Finset.prod_const, Finset.card_range,
    ← pow_mul, mul_assoc, ← pow_add]
  have h4 : (w * 4 - m) * n + n * m = 4 * (n * w) := by
    obtain ⟨p, hp⟩ : ∃ p, w * 4 = m + p := ⟨w * 4 - m, by omega⟩
    rw [show w * 4 - m = p by omega, show 4 * (n * w) = n * (w * 4) by ring, hp]
    ring
  rw [h4, pow_mul, mul_comm]
  congr 1
  rw [Finset.prod_range]
  apply Finset.prod_congr rfl
  intro i _
  rw [Finset.prod_range]
  apply Finset.prod_congr rfl
  intro j _
  unfold entryCon
  rw [dif_pos ⟨i.2, j.2⟩]
  rcases hM i j with h | h | h <;> simp [h, wt]

end Verif
