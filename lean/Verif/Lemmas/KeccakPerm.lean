/- Lemmas: Keccak-f[1600] is a permutation. -/
import Verif.Lemmas.Keccak
import Mathlib.Data.ZMod.Defs

namespace Verif.Merlin
open Verif Verif.Spec.Keccak

/-! ### Theta -/

/-- columns of the difference of two states with the same image -/
theorem parity_double (p : Fin 5 → Fin 64 → Bool) (a : Fin 5) (b : Fin 64)
    (h : ∀ x z, p x z = (p (x - a) z ^^ p (x + a) (z - b))) :
    ∀ x z, p x z = (p (x - (a + a)) z ^^ p (x + (a + a)) (z - (b + b))) := by
  intro x z
  have e1 := h (x - a) z
  have e2 := h (x + a) (z - b)
  rw [sub_add_cancel, sub_sub] at e1
  rw [add_sub_cancel_right, add_assoc, sub_sub] at e2
  rw [h x z, e1, e2]
  cases p x (z - b) <;> cases p (x - (a + a)) z <;> cases p (x + (a + a)) (z - (b + b)) <;> rfl

theorem row_zero : ∀ p0 p1 p2 p3 p4 : Bool, p0 = (p1 ^^ p4) → p1 = (p2 ^^ p0) → p2 = (p3 ^^ p1) → p3 = (p4 ^^ p2) →
    p4 = (p0 ^^ p3) → p0 = (p2 ^^ p3) → p1 = (p3 ^^ p4) → p2 = (p4 ^^ p0) → p3 = (p0 ^^ p1) → p4 = (p1 ^^ p2) →
    p0 = false ∧ p1 = false ∧ p2 = false ∧ p3 = false ∧ p4 = false := by decide

theorem parity_zero (p : Fin 5 → Fin 64 → Bool) (h : ∀ x z, p x z = (p (x - 1) z ^^ p (x + 1) (z - 1))) :
    ∀ x z, p x z = false := by
  have h1 := parity_double p 1 1 h
  have h2 := parity_double p _ _ h1
  have h3 := parity_double p _ _ h2
  have h4 := parity_double p _ _ h3
  have h5 := parity_double p _ _ h4
  have h6 := parity_double p _ _ h5
  have h7 := parity_double p _ _ h6
  have a6 : ((1 : Fin 5) + 1 + (1 + 1) + (1 + 1 + (1 + 1)) + (1 + 1 + (1 + 1) + (1 + 1 + (1 + 1))) +
      (1 + 1 + (1 + 1) + (1 + 1 + (1 + 1)) + (1 + 1 + (1 + 1) + (1 + 1 + (1 + 1)))) +
      (1 + 1 + (1 + 1) + (1 + 1 + (1 + 1)) + (1 + 1 + (1 + 1) + (1 + 1 + (1 + 1))) +
      (1 + 1 + (1 + 1) + (1 + 1 + (1 + 1)) + (1 + 1 + (1 + 1) + (1 + 1 + (1 + 1)))))) = 4 := by decide
  have b6 : ((1 : Fin 64) + 1 + (1 + 1) + (1 + 1 + (1 + 1)) + (1 + 1 + (1 + 1) + (1 + 1 + (1 + 1))) +
      (1 + 1 + (1 + 1) + (1 + 1 + (1 + 1)) + (1 + 1 + (1 + 1) + (1 + 1 + (1 + 1)))) +
      (1 + 1 + (1 + 1) + (1 + 1 + (1 + 1)) + (1 + 1 + (1 + 1) + (1 + 1 + (1 + 1))) +
      (1 + 1 + (1 + 1) + (1 + 1 + (1 + 1)) + (1 + 1 + (1 + 1) + (1 + 1 + (1 + 1)))))) = 0 := by decide
  rw [a6, b6] at h6 h7
  have a7 : (4 : Fin 5) + 4 = 3 := by decide
  rw [a7, add_zero] at h7
  simp only [sub_zero] at h6 h7
  intro x z
  obtain ⟨r0, r1, r2, r3, r4⟩ := row_zero (p 0 z) (p 1 z) (p 2 z) (p 3 z) (p 4 z) (h6 0 z) (h6 1 z) (h6 2 z) (h6 3 z) (h6 4 z)
    ((h7 0 z)) ((h7 1 z)) ((h7 2 z)) ((h7 3 z)) ((h7 4 z))
  have : ∀ x : Fin 5, x = 0 ∨ x = 1 ∨ x = 2 ∨ x = 3 ∨ x = 4 := by decide
  rcases this x with rfl | rfl | rfl | rfl | rfl <;> assumption

theorem xor_cancel_theta : ∀ a b c d e f : Bool, (a ^^ (b ^^ c)) = (d ^^ (e ^^ f)) → (a ^^ d) = ((b ^^ e) ^^ (c ^^ f)) := by decide

theorem xor_par : ∀ a0 a1 a2 a3 a4 b0 b1 b2 b3 b4 : Bool,
    ((a0 ^^ a1 ^^ a2 ^^ a3 ^^ a4) ^^ (b0 ^^ b1 ^^ b2 ^^ b3 ^^ b4)) =
      ((a0 ^^ b0) ^^ (a1 ^^ b1) ^^ (a2 ^^ b2) ^^ (a3 ^^ b3) ^^ (a4 ^^ b4)) := by decide

theorem theta_injective : Function.Injective theta := by
  intro A B h
  have hd : ∀ x y z, (A x y z ^^ B x y z) =
      ((parity A (x - 1) z ^^ parity B (x - 1) z) ^^ (parity A (x + 1) (z - 1) ^^ parity B (x + 1) (z - 1))) := by
    intro x y z
    have := congrFun (congrFun (congrFun h x) y) z
    unfold theta at this
    exact xor_cancel_theta _ _ _ _ _ _ this
  have hp := parity_zero (fun x z => parity A x z ^^ parity B x z) (by
    intro x z
    have e : (parity A x z ^^ parity B x z) = ((A x 0 z ^^ B x 0 z) ^^ (A x 1 z ^^ B x 1 z) ^^ (A x 2 z ^^ B x 2 z) ^^
        (A x 3 z ^^ B x 3 z) ^^ (A x 4 z ^^ B x 4 z)) := xor_par _ _ _ _ _ _ _ _ _ _
    show (parity A x z ^^ parity B x z) = _
    rw [e, hd, hd, hd, hd, hd]
    generalize ((parity A (x - 1) z ^^ parity B (x - 1) z) ^^ (parity A (x + 1) (z - 1) ^^ parity B (x + 1) (z - 1))) = w
    cases w <;> rfl)
  funext x y z
  have := hd x y z
  rw [hp, hp] at this
  revert this
  cases A x y z <;> cases B x y z <;> simp

/-! ### The other steps -/

theorem rho_injective : Function.Injective Spec.Keccak.rho := by
  intro A B h
  funext x y z
  have := congrFun (congrFun (congrFun h x) y) (z + Fin.ofNat 64 (offset x y))
  unfold Spec.Keccak.rho at this
  rwa [add_sub_cancel_right] at this

theorem pi_injective : Function.Injective Spec.Keccak.pi := by
  intro A B h
  funext u v z
  have e : ∀ u v : Fin 5, v + 3 * (2 * (u - v)) = u := by decide
  have := congrFun (congrFun (congrFun h v) (2 * (u - v))) z
  unfold Spec.Keccak.pi at this
  rwa [e] at this

theorem chi_row_injective : ∀ a0 a1 a2 a3 a4 b0 b1 b2 b3 b4 : Bool,
    (a0 ^^ (!a1 && a2)) = (b0 ^^ (!b1 && b2)) → (a1 ^^ (!a2 && a3)) = (b1 ^^ (!b2 && b3)) →
    (a2 ^^ (!a3 && a4)) = (b2 ^^ (!b3 && b4)) → (a3 ^^ (!a4 && a0)) = (b3 ^^ (!b4 && b0)) →
    (a4 ^^ (!a0 && a1)) = (b4 ^^ (!b0 && b1)) → a0 = b0 ∧ a1 = b1 ∧ a2 = b2 ∧ a3 = b3 ∧ a4 = b4 := by decide +kernel

theorem chi_injective : Function.Injective Spec.Keccak.chi := by
  intro A B h
  funext x y z
  have hh : ∀ x, Spec.Keccak.chi A x y z = Spec.Keccak.chi B x y z := fun x => by rw [h]
  obtain ⟨r0, r1, r2, r3, r4⟩ := chi_row_injective (A 0 y z) (A 1 y z) (A 2 y z) (A 3 y z) (A 4 y z)
    (B 0 y z) (B 1 y z) (B 2 y z) (B 3 y z) (B 4 y z) (hh 0) (hh 1) (hh 2) (hh 3) (hh 4)
  have : ∀ x : Fin 5, x = 0 ∨ x = 1 ∨ x = 2 ∨ x = 3 ∨ x = 4 := by decide
  rcases this x with rfl | rfl | rfl | rfl | rfl <;> assumption

theorem iota_injective (i : Nat) : Function.Injective (Spec.Keccak.iota i) := by
  intro A B h
  funext x y z
  have := congrFun (congrFun (congrFun h x) y) z
  unfold Spec.Keccak.iota at this
  split at this
  · revert this
    cases A x y z <;> cases B x y z <;> cases roundConstant i z <;> simp
  · exact this

theorem round_injective (i : Nat) : Function.Injective fun A => Spec.Keccak.round A i := fun _ _ h =>
  theta_injective (rho_injective (pi_injective (chi_injective (iota_injective i h))))

theorem keccakF_injective : Function.Injective keccakF := by
  unfold keccakF
  generalize List.range 24 = L
  induction L with
  | nil => exact fun _ _ h => h
  | cons i L ih => exact fun A B h => round_injective i (ih h)

/-! ### Byte strings and states -/

theorem byte_bits (a b : UInt8) (h : ∀ j, j < 8 → a.toNat.testBit j = b.toNat.testBit j) : a = b := by
  apply UInt8.toNat.inj
  apply Nat.eq_of_testBit_eq
  intro j
  by_cases hj : j < 8
  · exact h j hj
  · have hlt : ∀ c : UInt8, c.toNat < 2 ^ j := fun c =>
      lt_of_lt_of_le c.toNat_lt (Nat.pow_le_pow_right (by norm_num) (by omega))
    rw [Nat.testBit_lt_two_pow (hlt a), Nat.testBit_lt_two_pow (hlt b)]

theorem stateOf_injective (a b : Bytes) (ha : a.length = 200) (hb : b.length = 200) (h : stateOf a = stateOf b) : a = b := by
  apply List.ext_getElem (by rw [ha, hb])
  intro i h1 h2
  apply byte_bits
  intro j hj
  have hx : (i / 8) % 5 < 5 := Nat.mod_lt _ (by norm_num)
  have hy : i / 40 < 5 := by omega
  have hz : 8 * (i % 8) + j < 64 := by omega
  have := congrFun (congrFun (congrFun h ⟨(i / 8) % 5, hx⟩) ⟨i / 40, hy⟩) ⟨8 * (i % 8) + j, hz⟩
  unfold stateOf Spec.Keccak.bit at this
  simp only at this
  rw [show (64 * (5 * (i / 40) + i / 8 % 5) + (8 * (i % 8) + j)) / 8 = i by omega,
    show (64 * (5 * (i / 40) + i / 8 % 5) + (8 * (i % 8) + j)) % 8 = j by omega] at this
  rw [List.getD_eq_getElem _ _ h1, List.getD_eq_getElem _ _ h2] at this
  exact this

theorem keccakf_inj (a b : Bytes) (ha : a.length = 200) (hb : b.length = 200) (h : keccakf a = keccakf b) : a = b := by
  apply stateOf_injective a b ha hb
  apply keccakF_injective
  rw [← keccakf_bits a ha, ← keccakf_bits b hb, h]

end Verif.Merlin
