/-
The group order is prime.  Certificates of Pratt: `a` generates the multiplicative group modulo `p`,
which is checked with the factorisation of `p - 1`, whose prime factors have certificates themselves.
The kernel computes the powers.
-/
import Mathlib.NumberTheory.LucasPrimality
import Mathlib.Tactic.NormNum.Prime
import Verif.Model.ScalarOps
import Verif.Spec.Scalar

namespace Verif.Sc
open Verif

theorem powModLoop_eq (m : ℕ) (fuel : ℕ) : ∀ (b e acc : ℕ), e < 2 ^ fuel → powModLoop fuel b e acc m % m = acc * b ^ e % m := by
  induction fuel with
  | zero => intro b e acc h; obtain rfl : e = 0 := by omega
            simp [powModLoop]
  | succ fuel ih =>
    intro b e acc h
    rw [pow_succ] at h
    unfold powModLoop
    split
    · rename_i h0; subst h0; simp
    · rw [ih _ _ _ (by omega)]
      have hb : b ^ e = b ^ (e % 2) * (b * b) ^ (e / 2) := by
        conv_lhs => rw [← Nat.mod_add_div e 2, pow_add, pow_mul, pow_two]
      rw [hb]
      split
      · rename_i h1
        rw [h1, pow_one, Nat.mul_mod, Nat.pow_mod, Nat.mod_mod, Nat.mod_mod, ← Nat.pow_mod, ← Nat.mul_mod, mul_assoc]
      · rename_i h1
        rw [show e % 2 = 0 by omega, pow_zero, one_mul, Nat.mul_mod, Nat.pow_mod, Nat.mod_mod, ← Nat.pow_mod, ← Nat.mul_mod]

theorem powModLoop_lt (m : ℕ) (hm : 0 < m) (fuel : ℕ) : ∀ (b e acc : ℕ), acc < m → powModLoop fuel b e acc m < m := by
  induction fuel with
  | zero => intro b e acc h; exact h
  | succ fuel ih =>
    intro b e acc h
    unfold powModLoop
    split
    · exact h
    · apply ih
      split
      · exact Nat.mod_lt _ hm
      · exact h

theorem powMod_eq (b e m : ℕ) (hm : 1 < m) (he : e < 2 ^ 256) : powMod b e m = b ^ e % m := by
  have h1 := powModLoop_eq m 256 b e 1 he
  have h2 := powModLoop_lt m (by omega) 256 b e 1 hm
  rw [Nat.mod_eq_of_lt h2, one_mul] at h1
  exact h1

theorem prime_of_pratt (p a : ℕ) (qs : List (ℕ × ℕ)) (hp : 1 < p) (hp2 : p < 2 ^ 256) (hq : ∀ q ∈ qs, q.1.Prime)
    (hprod : (qs.map fun q => q.1 ^ q.2).prod = p - 1) (h1 : powMod a (p - 1) p = 1)
    (h2 : ∀ q ∈ qs, powMod a ((p - 1) / q.1) p ≠ 1) : p.Prime := by
  have hz : ∀ e : ℕ, e < 2 ^ 256 → ((a : ZMod p) ^ e = 1 ↔ powMod a e p = 1) := by
    intro e he
    rw [powMod_eq a e p hp he, ← Nat.cast_pow, ← Nat.cast_one, ZMod.natCast_eq_natCast_iff']
    rw [Nat.mod_eq_of_lt hp]
  refine lucas_primality p (a : ZMod p) ((hz _ (by omega)).2 h1) fun q hqp hqd => ?_
  rw [Ne, hz _ (lt_of_le_of_lt (Nat.div_le_self _ _) (by omega))]
  rw [← hprod] at hqd
  obtain ⟨x, hx, hd⟩ := (Prime.dvd_prod_iff hqp.prime).1 hqd
  obtain ⟨y, hy, rfl⟩ := List.mem_map.1 hx
  have := hqp.dvd_of_dvd_pow hd
  rw [(Nat.prime_dvd_prime_iff_eq hqp (hq y hy)).1 this]
  exact h2 y hy

theorem prime_34123 : Nat.Prime 34123 := by
  refine prime_of_pratt _ 2 [(2, 1), (3, 1), (11, 2), (47, 1)] (by decide +kernel) (by decide +kernel) ?_ (by decide +kernel) (by decide +kernel) (by decide +kernel)
  simp only [List.forall_mem_cons, List.not_mem_nil, false_imp_iff, implies_true, and_true]
  exact ⟨by norm_num, by norm_num, by norm_num, by norm_num⟩

theorem prime_409477 : Nat.Prime 409477 := by
  refine prime_of_pratt _ 2 [(2, 2), (3, 1), (34123, 1)] (by decide +kernel) (by decide +kernel) ?_ (by decide +kernel) (by decide +kernel) (by decide +kernel)
  simp only [List.forall_mem_cons, List.not_mem_nil, false_imp_iff, implies_true, and_true]
  exact ⟨by norm_num, by norm_num, prime_34123⟩

theorem prime_14741173 : Nat.Prime 14741173 := by
  refine prime_of_pratt _ 2 [(2, 2), (3, 2), (409477, 1)] (by decide +kernel) (by decide +kernel) ?_ (by decide +kernel) (by decide +kernel) (by decide +kernel)
  simp only [List.forall_mem_cons, List.not_mem_nil, false_imp_iff, implies_true, and_true]
  exact ⟨by norm_num, by norm_num, prime_409477⟩

theorem prime_58964693 : Nat.Prime 58964693 := by
  refine prime_of_pratt _ 2 [(2, 2), (14741173, 1)] (by decide +kernel) (by decide +kernel) ?_ (by decide +kernel) (by decide +kernel) (by decide +kernel)
  simp only [List.forall_mem_cons, List.not_mem_nil, false_imp_iff, implies_true, and_true]
  exact ⟨by norm_num, prime_14741173⟩

theorem prime_30703 : Nat.Prime 30703 := by
  refine prime_of_pratt _ 3 [(2, 1), (3, 1), (7, 1), (17, 1), (43, 1)] (by decide +kernel) (by decide +kernel) ?_ (by decide +kernel) (by decide +kernel) (by decide +kernel)
  simp only [List.forall_mem_cons, List.not_mem_nil, false_imp_iff, implies_true, and_true]
  exact ⟨by norm_num, by norm_num, by norm_num, by norm_num, by norm_num⟩

theorem prime_41081 : Nat.Prime 41081 := by
  refine prime_of_pratt _ 3 [(2, 3), (5, 1), (13, 1), (79, 1)] (by decide +kernel) (by decide +kernel) ?_ (by decide +kernel) (by decide +kernel) (by decide +kernel)
  simp only [List.forall_mem_cons, List.not_mem_nil, false_imp_iff, implies_true, and_true]
  exact ⟨by norm_num, by norm_num, by norm_num, by norm_num⟩

theorem prime_82163 : Nat.Prime 82163 := by
  refine prime_of_pratt _ 2 [(2, 1), (41081, 1)] (by decide +kernel) (by decide +kernel) ?_ (by decide +kernel) (by decide +kernel) (by decide +kernel)
  simp only [List.forall_mem_cons, List.not_mem_nil, false_imp_iff, implies_true, and_true]
  exact ⟨by norm_num, prime_41081⟩

theorem prime_22111 : Nat.Prime 22111 := by
  refine prime_of_pratt _ 6 [(2, 1), (3, 1), (5, 1), (11, 1), (67, 1)] (by decide +kernel) (by decide +kernel) ?_ (by decide +kernel) (by decide +kernel) (by decide +kernel)
  simp only [List.forall_mem_cons, List.not_mem_nil, false_imp_iff, implies_true, and_true]
  exact ⟨by norm_num, by norm_num, by norm_num, by norm_num, by norm_num⟩

theorem prime_132667 : Nat.Prime 132667 := by
  refine prime_of_pratt _ 5 [(2, 1), (3, 1), (22111, 1)] (by decide +kernel) (by decide +kernel) ?_ (by decide +kernel) (by decide +kernel) (by decide +kernel)
  simp only [List.forall_mem_cons, List.not_mem_nil, false_imp_iff, implies_true, and_true]
  exact ⟨by norm_num, by norm_num, prime_22111⟩

theorem prime_17231 : Nat.Prime 17231 := by
  refine prime_of_pratt _ 13 [(2, 1), (5, 1), (1723, 1)] (by decide +kernel) (by decide +kernel) ?_ (by decide +kernel) (by decide +kernel) (by decide +kernel)
  simp only [List.forall_mem_cons, List.not_mem_nil, false_imp_iff, implies_true, and_true]
  exact ⟨by norm_num, by norm_num, by norm_num⟩

theorem prime_137849 : Nat.Prime 137849 := by
  refine prime_of_pratt _ 3 [(2, 3), (17231, 1)] (by decide +kernel) (by decide +kernel) ?_ (by decide +kernel) (by decide +kernel) (by decide +kernel)
  simp only [List.forall_mem_cons, List.not_mem_nil, false_imp_iff, implies_true, and_true]
  exact ⟨by norm_num, prime_17231⟩

theorem prime_3044861653679985063343 : Nat.Prime 3044861653679985063343 := by
  refine prime_of_pratt _ 5 [(2, 1), (3, 1), (11, 1), (30703, 1), (82163, 1), (132667, 1), (137849, 1)] (by decide +kernel) (by decide +kernel) ?_ (by decide +kernel) (by decide +kernel) (by decide +kernel)
  simp only [List.forall_mem_cons, List.not_mem_nil, false_imp_iff, implies_true, and_true]
  exact ⟨by norm_num, by norm_num, by norm_num, prime_30703, prime_82163, prime_132667, prime_137849⟩

theorem prime_198211423230930754013084525763697 : Nat.Prime 198211423230930754013084525763697 := by
  refine prime_of_pratt _ 5 [(2, 4), (3, 1), (23, 1), (58964693, 1), (3044861653679985063343, 1)] (by decide +kernel) (by decide +kernel) ?_ (by decide +kernel) (by decide +kernel) (by decide +kernel)
  simp only [List.forall_mem_cons, List.not_mem_nil, false_imp_iff, implies_true, and_true]
  exact ⟨by norm_num, by norm_num, by norm_num, prime_58964693, prime_3044861653679985063343⟩

theorem prime_292386187 : Nat.Prime 292386187 := by
  refine prime_of_pratt _ 2 [(2, 1), (3, 4), (307, 1), (5879, 1)] (by decide +kernel) (by decide +kernel) ?_ (by decide +kernel) (by decide +kernel) (by decide +kernel)
  simp only [List.forall_mem_cons, List.not_mem_nil, false_imp_iff, implies_true, and_true]
  exact ⟨by norm_num, by norm_num, by norm_num, by norm_num⟩

theorem prime_213441916511 : Nat.Prime 213441916511 := by
  refine prime_of_pratt _ 13 [(2, 1), (5, 1), (73, 1), (292386187, 1)] (by decide +kernel) (by decide +kernel) ?_ (by decide +kernel) (by decide +kernel) (by decide +kernel)
  simp only [List.forall_mem_cons, List.not_mem_nil, false_imp_iff, implies_true, and_true]
  exact ⟨by norm_num, by norm_num, by norm_num, prime_292386187⟩

theorem prime_531581 : Nat.Prime 531581 := by
  refine prime_of_pratt _ 2 [(2, 2), (5, 1), (7, 1), (3797, 1)] (by decide +kernel) (by decide +kernel) ?_ (by decide +kernel) (by decide +kernel) (by decide +kernel)
  simp only [List.forall_mem_cons, List.not_mem_nil, false_imp_iff, implies_true, and_true]
  exact ⟨by norm_num, by norm_num, by norm_num, by norm_num⟩

theorem prime_1224481 : Nat.Prime 1224481 := by
  refine prime_of_pratt _ 13 [(2, 5), (3, 1), (5, 1), (2551, 1)] (by decide +kernel) (by decide +kernel) ?_ (by decide +kernel) (by decide +kernel) (by decide +kernel)
  simp only [List.forall_mem_cons, List.not_mem_nil, false_imp_iff, implies_true, and_true]
  exact ⟨by norm_num, by norm_num, by norm_num, by norm_num⟩

theorem prime_1257559732178653 : Nat.Prime 1257559732178653 := by
  refine prime_of_pratt _ 2 [(2, 2), (3, 1), (7, 1), (23, 1), (531581, 1), (1224481, 1)] (by decide +kernel) (by decide +kernel) ?_ (by decide +kernel) (by decide +kernel) (by decide +kernel)
  simp only [List.forall_mem_cons, List.not_mem_nil, false_imp_iff, implies_true, and_true]
  exact ⟨by norm_num, by norm_num, by norm_num, by norm_num, prime_531581, prime_1224481⟩

theorem prime_4434155615661930479 : Nat.Prime 4434155615661930479 := by
  refine prime_of_pratt _ 17 [(2, 1), (41, 1), (43, 1), (1257559732178653, 1)] (by decide +kernel) (by decide +kernel) ?_ (by decide +kernel) (by decide +kernel) (by decide +kernel)
  simp only [List.forall_mem_cons, List.not_mem_nil, false_imp_iff, implies_true, and_true]
  exact ⟨by norm_num, by norm_num, by norm_num, prime_1257559732178653⟩

theorem prime_172054593956031949258510691 : Nat.Prime 172054593956031949258510691 := by
  refine prime_of_pratt _ 2 [(2, 1), (5, 1), (1361, 1), (2851, 1), (4434155615661930479, 1)] (by decide +kernel) (by decide +kernel) ?_ (by decide +kernel) (by decide +kernel) (by decide +kernel)
  simp only [List.forall_mem_cons, List.not_mem_nil, false_imp_iff, implies_true, and_true]
  exact ⟨by norm_num, by norm_num, by norm_num, by norm_num, prime_4434155615661930479⟩

theorem prime_19757330305831588566944191468367130476339 : Nat.Prime 19757330305831588566944191468367130476339 := by
  refine prime_of_pratt _ 2 [(2, 1), (269, 1), (213441916511, 1), (172054593956031949258510691, 1)] (by decide +kernel) (by decide +kernel) ?_ (by decide +kernel) (by decide +kernel) (by decide +kernel)
  simp only [List.forall_mem_cons, List.not_mem_nil, false_imp_iff, implies_true, and_true]
  exact ⟨by norm_num, by norm_num, prime_213441916511, prime_172054593956031949258510691⟩

theorem prime_276602624281642239937218680557139826668747 : Nat.Prime 276602624281642239937218680557139826668747 := by
  refine prime_of_pratt _ 2 [(2, 1), (7, 1), (19757330305831588566944191468367130476339, 1)] (by decide +kernel) (by decide +kernel) ?_ (by decide +kernel) (by decide +kernel) (by decide +kernel)
  simp only [List.forall_mem_cons, List.not_mem_nil, false_imp_iff, implies_true, and_true]
  exact ⟨by norm_num, by norm_num, prime_19757330305831588566944191468367130476339⟩

theorem prime_order : Nat.Prime Spec.order := by
  refine prime_of_pratt _ 2 [(2, 2), (3, 1), (11, 1), (198211423230930754013084525763697, 1), (276602624281642239937218680557139826668747, 1)] (by decide +kernel) (by decide +kernel) ?_ (by decide +kernel) (by decide +kernel) (by decide +kernel)
  simp only [List.forall_mem_cons, List.not_mem_nil, false_imp_iff, implies_true, and_true]
  exact ⟨by norm_num, by norm_num, by norm_num, prime_198211423230930754013084525763697, prime_276602624281642239937218680557139826668747⟩

end Verif.Sc
